import Verif.Mpi.Model
/-!
# Ranks, the output directory and communicators (C85)
-/
set_option autoImplicit false
set_option linter.unusedSimpArgs false
namespace Umpire.Mpi

/-! ## Ranks -/

/-- Specification: the first `umpire::initialize` of a history: whether MPI had been started by then, and the communicator. -/
def firstInit : List Cmd → Option (Bool × View)
  | [] => none
  | .setup st v :: _ => some (st, v)
  | .finalize :: cs => firstInit cs

theorem run_once {cs : List Cmd} {m : M} (h : m.once = true) : run true m cs = m := by
  induction cs with
  | nil => rfl
  | cons c cs ih =>
    have : step true m c = m := by
      cases c with
      | setup st v => simp [step, setup, h]
      | finalize => cases hi : m.initialized <;> simp [step, finalize, hi]
    show run true (step true m c) cs = m
    rw [this, ih]

/-- The rank, the number of ranks and whether Umpire knows them are settled by the first `umpire::initialize` for good. -/
theorem rank_first (cs : List Cmd) :
    run true {} cs = match firstInit cs with
      | none => {}
      | some (false, _) => { once := true }
      | some (true, v) => { rank := v.rank, size := v.size, initialized := true, comm := some v, once := true } := by
  induction cs with
  | nil => rfl
  | cons c cs ih =>
    cases c with
    | finalize => exact ih
    | setup st v =>
      cases st
      · exact run_once (m := { once := true }) rfl
      · exact run_once (m := { rank := v.rank, size := v.size, initialized := true, comm := some v, once := true }) rfl

/-- `umpire::initialize` throws in no history, with MPI or without. -/
theorem rank_no_throw (mpi st : Bool) (v : View) (cs : List Cmd) : ∃ m, setup mpi st v (run mpi {} cs) = .ok m := by
  have inv : ∀ cs m, (m.initialized = true → m.once = true) → ((run mpi m cs).initialized = true → (run mpi m cs).once = true) := by
    intro cs
    induction cs with
    | nil => exact fun _ h => h
    | cons c cs ih =>
      intro m h
      refine ih (step mpi m c) ?_
      cases c with
      | finalize => unfold step finalize; dsimp only; cases hi : m.initialized <;> cases mpi <;> simp_all
      | setup st v =>
        unfold step setup mpiInitialize
        cases ho : m.once <;> cases hi : m.initialized <;> cases mpi <;> cases st <;> simp_all
  have h := inv cs {} (fun h => nomatch h)
  generalize run mpi {} cs = m at h
  unfold setup mpiInitialize
  cases ho : m.once <;> cases hi : m.initialized <;> cases mpi <;> cases st <;> simp_all

/-- The claim "once `umpire::initialize` is called after `MPI_Init`, Umpire knows its rank" is false: not if it was called before
`MPI_Init` too.  From then on nothing initialises it, `sync` throws, and the rank is -1. -/
theorem rank_counterexample (v w : View) (cs : List Cmd) :
    (run true {} (.setup false v :: .setup true w :: cs)).initialized = false ∧
    (run true {} (.setup false v :: .setup true w :: cs)).rank = -1 ∧
    sync true (run true {} (.setup false v :: .setup true w :: cs)) = .throws := by
  rw [rank_first]
  exact ⟨rfl, rfl, rfl⟩

/-- Without MPI: rank 0 of 1 until `finalize`, and -1 of -1 ever after, though Umpire goes on to call itself initialised. -/
theorem rank_alone (cs : List Cmd) (h : firstInit cs ≠ none) :
    (run false {} cs).initialized = true ∧
    ((.finalize ∉ cs → (run false {} cs).rank = 0 ∧ (run false {} cs).size = 1)) ∧
    ((run false {} (cs ++ [.finalize])).rank = -1 ∧ ∀ ds, (run false {} (cs ++ .finalize :: ds)).rank = -1 ∧
      (run false {} (cs ++ .finalize :: ds)).initialized = true) := by
  have stay : ∀ cs m, m.once = true → m.initialized = true →
      (run false m cs).once = true ∧ (run false m cs).initialized = true ∧
      (m.rank = -1 → (run false m cs).rank = -1) ∧
      (.finalize ∉ cs → (run false m cs).rank = m.rank ∧ (run false m cs).size = m.size) := by
    intro cs
    induction cs with
    | nil => intro m h1 h2; exact ⟨h1, h2, id, fun _ => ⟨rfl, rfl⟩⟩
    | cons c cs ih =>
      intro m h1 h2
      cases c with
      | setup st v =>
        have : step false m (.setup st v) = m := by simp [step, setup, h1]
        show (run false (step false m _) cs).once = true ∧ _
        rw [show run false m (.setup st v :: cs) = run false m cs by show run false (step false m _) cs = _; rw [this], this]
        obtain ⟨a, b, c, d⟩ := ih m h1 h2
        exact ⟨a, b, c, fun h => d fun hm => h (List.mem_cons_of_mem _ hm)⟩
      | finalize =>
        have : step false m .finalize = { m with rank := -1, size := -1 } := by simp [step, finalize, h2]
        rw [show run false m (.finalize :: cs) = run false { m with rank := -1, size := -1 } cs by
          show run false (step false m _) cs = _; rw [this]]
        obtain ⟨a, b, c, _⟩ := ih { m with rank := -1, size := -1 } h1 h2
        exact ⟨a, b, fun _ => c rfl, fun h => absurd (List.mem_cons_self ..) h⟩
  have main : (run false {} cs).once = true ∧ (run false {} cs).initialized = true ∧
      (.finalize ∉ cs → (run false {} cs).rank = 0 ∧ (run false {} cs).size = 1) := by
    induction cs with
    | nil => exact absurd rfl h
    | cons c cs ih =>
      cases c with
      | finalize =>
        obtain ⟨a, b, _⟩ := ih h
        exact ⟨a, b, fun h => absurd (List.mem_cons_self ..) h⟩
      | setup st v =>
        obtain ⟨a, b, _, d⟩ := stay cs { rank := 0, size := 1, initialized := true, once := true } rfl rfl
        exact ⟨a, b, fun h => d fun hm => h (List.mem_cons_of_mem _ hm)⟩
  have fin : ∀ ds, (run false {} (cs ++ .finalize :: ds)).rank = -1 ∧ (run false {} (cs ++ .finalize :: ds)).initialized = true := by
    intro ds
    obtain ⟨a, b, _⟩ := main
    have : step false (run false {} cs) .finalize = { run false {} cs with rank := -1, size := -1 } := by simp [step, finalize, b]
    have he : run false {} (cs ++ .finalize :: ds) = run false { run false {} cs with rank := -1, size := -1 } ds := by
      rw [← this]; simp [run, List.foldl_append]
    rw [he]
    obtain ⟨_, d, e, _⟩ := stay ds { run false {} cs with rank := -1, size := -1 } a b
    exact ⟨e rfl, d⟩
  exact ⟨main.2.1, main.2.2, (fin []).1, fin⟩

/-! ## The output directory -/

theorem IoSteps.trans {n : Nat} {log : Bool} {s t u : Io} (h1 : IoSteps n log s t) (h2 : IoSteps n log t u) : IoSteps n log s u := by
  induction h2 with
  | refl => exact h1
  | tail _ h ih => exact .tail ih h

theorem set_at (s : Io) (p q : Nat) (a : At) : (s.set p a).at_ q = if q = p then a else s.at_ q := rfl

/-- If the directory exists, no process waits for another: each is before its check, and free to make it, or past it. -/
theorem io_exists {n : Nat} {log : Bool} {s : Io} (h : IoSteps n log (.start true) s) :
    s.dir = true ∧ ∀ p, s.at_ p = .check ∨ s.at_ p = .past := by
  induction h with
  | refl => exact ⟨rfl, fun _ => .inl rfl⟩
  | tail _ h ih =>
    obtain ⟨hd, ha⟩ := ih
    cases h with
    | exists_ p hp h hd' =>
      refine ⟨hd, fun q => ?_⟩
      rw [set_at]; split
      · exact .inr rfl
      · exact ha q
    | missing p hp h hd' => rw [hd] at hd'; exact nomatch hd'
    | create h => rcases ha 0 with h' | h' <;> rw [h] at h' <;> exact nomatch h'
    | fail h => rcases ha 0 with h' | h' <;> rw [h] at h' <;> exact nomatch h'
    | barrier h =>
      refine ⟨hd, fun q => ?_⟩
      dsimp only; split
      · exact .inr rfl
      · exact ha q
    | other => exact ⟨rfl, ha⟩

/-- With the log enabled, a process past initialisation finds the directory: always, in every interleaving. -/
theorem io_dir {n : Nat} {dir : Bool} {s : Io} (h : IoSteps n true (.start dir) s) {p : Nat} (hp : s.at_ p = .past) : s.dir = true := by
  have inv : (s.at_ 0 = .barrier → s.dir = true) ∧ (∀ p, s.at_ p = .past → s.dir = true) := by
    clear hp
    induction h with
    | refl => exact ⟨(fun h => (nomatch h)), (fun _ h => (nomatch h))⟩
    | @tail t u _ h ih =>
      obtain ⟨h0, h1⟩ := ih
      cases h with
      | exists_ p hp h hd => exact ⟨fun _ => hd, fun _ _ => hd⟩
      | missing p hp' h hd =>
        refine ⟨fun hb => ?_, fun q hq => ?_⟩
        · rw [set_at] at hb
          split at hb
          · next hz => rw [if_pos hz.symm] at hb; exact nomatch hb
          · exact h0 hb
        · rw [set_at] at hq
          split at hq
          · split at hq <;> exact nomatch hq
          · exact h1 q hq
      | create h => simp only [Bool.or_true]; exact ⟨fun _ => trivial, fun _ _ => trivial⟩
      | fail h hd hl =>
        refine ⟨fun hb => ?_, fun q hq => ?_⟩
        · rw [set_at, if_pos rfl] at hb; exact nomatch hb
        · rw [set_at] at hq
          split at hq
          · exact nomatch hq
          · exact h1 q hq
      | barrier h =>
        dsimp only
        by_cases hn : 0 < n
        · exact ⟨fun _ => h0 (h 0 hn), fun _ _ => h0 (h 0 hn)⟩
        · refine ⟨fun hb => ?_, fun q hq => ?_⟩
          · rw [if_neg hn] at hb; exact h0 hb
          · rw [if_neg (by omega)] at hq; exact h1 q hq
      | other => exact ⟨fun _ => rfl, fun _ _ => rfl⟩
  exact inv.2 p hp

/-- Processes done with it for good: past it, or thrown out of it. -/
def Gone (a : At) : Prop := a = .past ∨ a = .threw

/-- A process in the barrier stays there for ever once another one, by its check or by an exception, does not come. -/
theorem io_stuck {n : Nat} {log : Bool} {s t : Io} {p q : Nat} (hq : q < n) (h1 : s.at_ p = .barrier) (h2 : Gone (s.at_ q))
    (h : IoSteps n log s t) : t.at_ p = .barrier ∧ Gone (t.at_ q) := by
  induction h with
  | refl => exact ⟨h1, h2⟩
  | @tail t u _ h ih =>
    obtain ⟨a, b⟩ := ih
    have keep : ∀ r x, t.at_ r ≠ .barrier → ¬ Gone (t.at_ r) → (t.set r x).at_ p = .barrier ∧ Gone ((t.set r x).at_ q) := by
      intro r x h3 h4
      rw [set_at, set_at, if_neg (by rintro rfl; exact h3 a), if_neg (by rintro rfl; exact h4 b)]
      exact ⟨a, b⟩
    cases h with
    | exists_ r hr h _ => exact keep r _ (by rw [h]; exact nofun) (by rw [h]; exact fun h => by rcases h with h | h <;> exact nomatch h)
    | missing r hr h _ => exact keep r _ (by rw [h]; exact nofun) (by rw [h]; exact fun h => by rcases h with h | h <;> exact nomatch h)
    | create h => exact keep 0 _ (by rw [h]; exact nofun) (by rw [h]; exact fun h => by rcases h with h | h <;> exact nomatch h)
    | fail h _ _ => exact keep 0 _ (by rw [h]; exact nofun) (by rw [h]; exact fun h => by rcases h with h | h <;> exact nomatch h)
    | barrier h => have := h q hq; rw [this] at b; rcases b with h | h <;> exact nomatch h
    | other => exact ⟨a, b⟩

/-- The claim "every process gets through initialisation" is false for two processes or more that find no directory: if rank 0 creates
it before rank 1 looks, rank 1 does not call the barrier in which rank 0 waits, for ever. -/
theorem io_deadlock_counterexample {n : Nat} (hn : 2 ≤ n) :
    ∃ s, IoSteps n true (.start false) s ∧ s.at_ 0 = .barrier ∧ s.at_ 1 = .past ∧ ∀ t, IoSteps n true s t → t.at_ 0 = .barrier := by
  have h1 : IoSteps n true (.start false) ((Io.start false).set 0 .create) :=
    .tail .refl (.missing (s := .start false) 0 (by omega) rfl rfl)
  have h2 := IoSteps.tail h1 (.create rfl)
  have h3 := IoSteps.tail h2 (.exists_ 1 (by omega) rfl rfl)
  exact ⟨_, h3, rfl, rfl, fun t h => (io_stuck (q := 1) (by omega) rfl (.inl rfl) h).1⟩

/-- If the directory cannot be created, rank 0 throws and the others wait for it for ever. -/
theorem io_throw_counterexample {n p : Nat} (hp0 : p ≠ 0) (hp : p < n) :
    ∃ s, IoSteps n true (.start false) s ∧ s.at_ 0 = .threw ∧ ∀ t, IoSteps n true s t → t.at_ p = .barrier := by
  have h1 : IoSteps n true (.start false) ((Io.start false).set 0 .create) :=
    .tail .refl (.missing (s := .start false) 0 (by omega) rfl rfl)
  have h2 : IoSteps n true (.start false) (((Io.start false).set 0 .create).set p (if p = 0 then .create else .barrier)) :=
    .tail h1 (.missing p hp (by rw [set_at, if_neg hp0]; rfl) rfl)
  rw [if_neg hp0] at h2
  have h0 : (((Io.start false).set 0 .create).set p .barrier).at_ 0 = .create := by
    rw [set_at, if_neg (fun h => hp0 h.symm)]; rfl
  have h3 := IoSteps.tail h2 (.fail h0 rfl rfl)
  refine ⟨_, h3, by rw [set_at, if_pos rfl], fun t h => (io_stuck (q := 0) (by omega) ?_ (.inr ?_) h).1⟩
  · rw [set_at, if_neg hp0, set_at, if_pos rfl]
  · rw [set_at, if_pos rfl]

theorem io_create {n : Nat} {log dir : Bool} {s : Io} (h : IoSteps n log (.start dir) s) (p : Nat) (hp : s.at_ p = .create) : p = 0 := by
  induction h generalizing p with
  | refl => exact nomatch hp
  | @tail t u _ h ih =>
    have keep : ∀ r x, (x = .create → r = 0) → (t.set r x).at_ p = .create → p = 0 := by
      intro r x hx h
      rw [set_at] at h
      split at h
      · next e => rw [e]; exact hx h
      · exact ih p h
    cases h with
    | exists_ r hr h _ => exact keep r .past (fun h => nomatch h) hp
    | missing r hr h _ =>
      refine keep r _ (fun h => ?_) hp
      split at h
      · assumption
      · exact nomatch h
    | create h => exact keep 0 .barrier (fun h => nomatch h) hp
    | fail h _ _ => exact keep 0 .threw (fun h => nomatch h) hp
    | barrier h =>
      dsimp only at hp
      split at hp
      · exact nomatch hp
      · exact ih p hp
    | other => exact ih p hp

/-- That is the only way it goes wrong: in every other state some process can go on until all are done. -/
theorem io_progress {n : Nat} {log dir : Bool} {s : Io} (h : IoSteps n log (.start dir) s) :
    (∀ p < n, Gone (s.at_ p)) ∨ (∃ p < n, ∃ t, IoStep n log s t ∧ t.at_ p ≠ s.at_ p) ∨
    (∃ p < n, ∃ q < n, s.at_ p = .barrier ∧ Gone (s.at_ q)) := by
  by_cases hc : ∃ p < n, s.at_ p = .check
  · obtain ⟨p, hp, hc⟩ := hc
    refine .inr (.inl ⟨p, hp, ?_⟩)
    cases hd : s.dir with
    | true => exact ⟨_, .exists_ p hp hc hd, by rw [set_at, if_pos rfl, hc]; exact nofun⟩
    | false => exact ⟨_, .missing p hp hc hd, by rw [set_at, if_pos rfl, hc]; split <;> exact nofun⟩
  by_cases hk : ∃ p < n, s.at_ p = .create
  · obtain ⟨p, hp, hk⟩ := hk
    obtain rfl := io_create h p hk
    exact .inr (.inl ⟨0, hp, _, .create hk, by show (s.set 0 .barrier).at_ 0 ≠ _; rw [set_at, if_pos rfl, hk]; exact nofun⟩)
  have rest : ∀ p < n, s.at_ p = .barrier ∨ Gone (s.at_ p) := by
    intro p hp
    cases ha : s.at_ p with
    | check => exact absurd ⟨p, hp, ha⟩ hc
    | create => exact absurd ⟨p, hp, ha⟩ hk
    | barrier => exact .inl rfl
    | past => exact .inr (.inl rfl)
    | threw => exact .inr (.inr rfl)
  by_cases hb : ∃ p < n, s.at_ p = .barrier
  · by_cases hg : ∃ q < n, Gone (s.at_ q)
    · obtain ⟨p, hp, hb⟩ := hb
      obtain ⟨q, hq, hg⟩ := hg
      exact .inr (.inr ⟨p, hp, q, hq, hb, hg⟩)
    · obtain ⟨p, hp, hb⟩ := hb
      have all : ∀ p < n, s.at_ p = .barrier := fun r hr => (rest r hr).resolve_right fun h => hg ⟨r, hr, h⟩
      exact .inr (.inl ⟨p, hp, _, .barrier all, by simp [hp, hb]⟩)
  · exact .inl fun p hp => (rest p hp).resolve_left fun h => hb ⟨p, hp, h⟩

/-- A run in which every process looks before rank 0 creates the directory does go through: such a run exists for every number of
processes. -/
theorem io_completes {n : Nat} (hn : 0 < n) : ∃ s, IoSteps n true (.start false) s ∧ ∀ p < n, s.at_ p = .past := by
  have look : ∀ k, k ≤ n → ∃ s, IoSteps n true (.start false) s ∧ s.dir = false ∧ (∀ p, k ≤ p → s.at_ p = .check) ∧
      ∀ p < k, s.at_ p = if p = 0 then .create else .barrier := by
    intro k
    induction k with
    | zero => exact fun _ => ⟨_, .refl, rfl, fun _ _ => rfl, fun p hp => absurd hp (Nat.not_lt_zero p)⟩
    | succ k ih =>
      intro hk
      obtain ⟨s, h, hd, h1, h2⟩ := ih (by omega)
      refine ⟨_, .tail h (.missing k (by omega) (h1 k (Nat.le_refl _)) hd), hd, fun p hp => ?_, fun p hp => ?_⟩
      · rw [set_at, if_neg (by omega)]; exact h1 p (by omega)
      · rw [set_at]
        split
        · next e => rw [e]
        · exact h2 p (by omega)
  obtain ⟨s, h, hd, _, h2⟩ := look n (Nat.le_refl _)
  have h0 : s.at_ 0 = .create := by rw [h2 0 hn]; rfl
  refine ⟨_, .tail (.tail h (.create h0)) (.barrier fun p hp => ?_), fun p hp => by simp [hp]⟩
  show (s.set 0 .barrier).at_ p = _
  rw [set_at]
  split
  · rfl
  · next hp0 => rw [h2 p hp, if_neg hp0]

end Umpire.Mpi
