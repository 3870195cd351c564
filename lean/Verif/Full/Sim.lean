import Verif.Full.Group
/-!
# Every execution of the whole library is one of the facade on abstract strategies
-/
set_option autoImplicit false
set_option linter.unusedSimpArgs false
set_option linter.unusedSectionVars false
namespace Umpire.Full
open Umpire.Prog Umpire.Nest Umpire.Judy Umpire.Mgr Umpire.Whole
open Umpire.Thr (Act CP Call code after set set_same set_other)

variable {L : Lay} {T : Type}

theorem updJ_same {f : ∀ r, Option (Job T (L.arr r))} {r : Nat} {j : Option (Job T (L.arr r))} : updJ f r j r = j := by simp [updJ]
theorem updJ_ne {f : ∀ r, Option (Job T (L.arr r))} {r k : Nat} {j : Option (Job T (L.arr r))} (h : k ≠ r) : updJ f r j k = f k := by simp [updJ, h]

/-! ## The invariant -/

abbrev Invs (L : Lay) := ∀ r, (L.arr r).sys.σ → Held → Prop

def Invs.Ok (I : Invs L) : Prop := ∀ r, (L.arr r).sys.Ok (Upto (W - 1)) (I r) ∧ (L.arr r).NonNull (Upto (W - 1)) (I r) ∧ ZeroSpec L r (I r)

/-- The group is in a proper state, or in the middle of a request that will lead to one. -/
def Ready (I : Invs L) (S : St L) (job : ∀ r, Option (Job T (L.arr r))) (r : Nat) : Prop :=
  match job r with
  | none => I r (S.f r) (S.H r)
  | some j => Busy (I r) (S.f r) (S.H r) j.task j.todo

/-- The thread for whom the request is, waits for it. -/
def Serves (S : St L) (thr : T → Option (Call × CP Nat)) (r : Nat) (j : Job T (L.arr r)) : Prop :=
  match j.who, j.task with
  | some t, .use q (.alloc n) => ∃ cl s k, thr t = some (cl, .act (.ask s n) k) ∧ L.place s = some ⟨r, q⟩ ∧ S.built ⟨r, q⟩ = true
  | some t, .use q (.dealloc p) => ∃ cl s n k, thr t = some (cl, .act (.hand s p (some n)) k) ∧ L.place s = some ⟨r, q⟩ ∧ (p, n) ∈ S.user ⟨r, q⟩
  | none, .other _ => True
  | _, _ => False

structure J (I : Invs L) (M : MS L T) : Prop where
  grp : ∀ r, Ready I M.S M.job r
  world : Nest.World M.S.H
  built : ∀ x, M.S.user x ≠ [] → M.S.built x = true
  jobs : ∀ r j, M.job r = some j → Serves M.S M.thr r j

section
variable {I : Invs L} {M : MS L T}

theorem live_sub {x : Σ r, (L.arr r).Pos} {u : Nat × Nat} (h : u ∈ M.live x) : u ∈ M.S.user x := by
  unfold MS.live at h
  split at h
  · rename_i j _
    unfold Task.stay at h
    split at h
    · exact drop_sub u h
    · exact h
  · exact h

theorem live_free {r : Nat} {q : (L.arr r).Pos} (h : M.job r = none) : M.live ⟨r, q⟩ = M.S.user ⟨r, q⟩ := by
  unfold MS.live
  dsimp only
  rw [h]

theorem live_job {r : Nat} {q : (L.arr r).Pos} {j : Job T (L.arr r)} (h : M.job r = some j) : M.live ⟨r, q⟩ = j.task.stay (M.S.user ⟨r, q⟩) := by
  unfold MS.live
  dsimp only
  rw [h]

theorem live_congr {M M' : MS L T} {r : Nat} {q : (L.arr r).Pos} (h : M'.job r = M.job r) (hf : M'.S.f r = M.S.f r) : M'.live ⟨r, q⟩ = M.live ⟨r, q⟩ := by
  unfold MS.live St.user
  dsimp only
  rw [h, hf]

theorem J.sound (hI : I.Ok) (h : J I M) (r : Nat) : Sound ((L.arr r).sys.live (M.S.f r)) := by
  have := h.grp r
  unfold Ready at this
  split at this
  · exact good_sound ((hI r).1.good this)
  · exact this.sound

theorem J.cov (hI : I.Ok) (h : J I M) {x : Σ r, (L.arr r).Pos} {u : Nat × Nat} (hu : u ∈ M.live x) :
    0 < u.2 ∧ ∃ o ∈ M.S.H x.1, Within u.1 u.2 o.1 o.2 := by
  obtain ⟨r, q⟩ := x
  have hr := h.grp r
  unfold Ready at hr
  split at hr
  · rename_i hj
    rw [live_free hj] at hu
    have hm := (L.arr r).mem_live.2 ⟨q, hu⟩
    exact ⟨((hI r).1.good hr).upos u hm, ((hI r).1.good hr).cov u hm⟩
  · rename_i j hj
    rw [live_job hj] at hu
    have hm := hr.stay q u hu
    exact ⟨hr.good.upos u hm, hr.good.cov u hm⟩

theorem J.disj (hI : I.Ok) (h : J I M) {x y : Σ r, (L.arr r).Pos} {u v : Nat × Nat} (hu : u ∈ M.live x) (hv : v ∈ M.live y) (hxy : x ≠ y) :
    Disj u.1 u.2 v.1 v.2 := by
  obtain ⟨r, q⟩ := x
  obtain ⟨k, q'⟩ := y
  by_cases hrk : r = k
  · subst hrk
    exact ((L.arr r).user_disj (h.sound hI r).1).2 q q' (fun e => hxy (by rw [e])) u (live_sub hu) v (live_sub hv)
  · obtain ⟨-, o, ho, hw⟩ := h.cov hI hu
    obtain ⟨-, o', ho', hw'⟩ := h.cov hI hv
    exact Disj.of_within (h.world.cross r k hrk o ho o' ho') hw hw'

theorem J.inj (hI : I.Ok) (h : J I M) {x y : Σ r, (L.arr r).Pos} {p n m : Nat} (hu : (p, n) ∈ M.live x) (hv : (p, m) ∈ M.live y) : x = y ∧ n = m := by
  by_cases hxy : x = y
  · subst hxy
    refine ⟨rfl, ?_⟩
    have hd := ((L.arr x.1).user_disj (h.sound hI x.1).1).1 x.2
    exact congrArg Prod.snd (Held.inj hd (fun u hu => (h.sound hI x.1).2 u ((L.arr x.1).mem_live.2 ⟨x.2, hu⟩)) (live_sub hu) (live_sub hv) rfl)
  · have := h.disj hI hu hv hxy
    have h1 := (h.cov hI hu).1
    have h2 := (h.cov hI hv).1
    unfold Disj at this
    simp only at this h1 h2
    omega

/-- The thread for whom a request is carried out waits for it. -/
theorem J.waits (h : J I M) {r : Nat} {j : Job T (L.arr r)} {t : T} (hj : M.job r = some j) (hw : j.who = some t) :
    (∃ cl s n k q, M.thr t = some (cl, .act (.ask s n) k) ∧ L.place s = some ⟨r, q⟩ ∧ j.task = .use q (.alloc n)) ∨
    (∃ cl s p n k q, M.thr t = some (cl, .act (.hand s p (some n)) k) ∧ L.place s = some ⟨r, q⟩ ∧ j.task = .use q (.dealloc p) ∧ (p, n) ∈ M.S.user ⟨r, q⟩) := by
  have hs := h.jobs r j hj
  obtain ⟨who, task, todo⟩ := j
  dsimp only at hw
  subst hw
  cases task with
  | other o => exact hs.elim
  | use q u =>
    cases u with
    | alloc n =>
      obtain ⟨cl, s, k, h1, h2, -⟩ := hs
      exact .inl ⟨cl, s, n, k, q, h1, h2, rfl⟩
    | dealloc p =>
      obtain ⟨cl, s, n, k, h1, h2, h3⟩ := hs
      exact .inr ⟨cl, s, p, n, k, q, h1, h2, rfl, h3⟩

theorem J.one (h : J I M) {r k : Nat} {j : Job T (L.arr r)} {j' : Job T (L.arr k)} {t : T} (hj : M.job r = some j) (hw : j.who = some t)
    (hj' : M.job k = some j') (hw' : j'.who = some t) : r = k := by
  rcases h.waits hj hw with ⟨cl, s, n, c, q, h1, h2, -⟩ | ⟨cl, s, p, n, c, q, h1, h2, -⟩ <;>
  rcases h.waits hj' hw' with ⟨cl', s', n', c', q', h1', h2', -⟩ | ⟨cl', s', p', n', c', q', h1', h2', -⟩ <;>
  · rw [h1] at h1'
    simp only [Option.some.injEq, Prod.mk.injEq, CP.act.injEq, reduceCtorEq, false_and, and_false, Act.ask.injEq, Act.hand.injEq] at h1'
    try
      obtain ⟨-, he, -⟩ := h1'
      try rw [he.1, h2'] at h2
      injection h2 with h2
      exact (congrArg Sigma.fst h2).symm

/-- No request is being carried out for `t`. -/
def NoJob (M : MS L T) (t : T) : Prop := ∀ r j, M.job r = some j → j.who ≠ some t

theorem J.noJob (h : J I M) {t : T} (h1 : ∀ cl s n k, M.thr t ≠ some (cl, .act (.ask s n) k)) (h2 : ∀ cl s p n k, M.thr t ≠ some (cl, .act (.hand s p n) k)) :
    NoJob M t := by
  intro r j hj hw
  rcases h.waits hj hw with ⟨cl, s, n, k, q, h3, -⟩ | ⟨cl, s, p, n, k, q, h3, -⟩
  · exact h1 _ _ _ _ h3
  · exact h2 _ _ _ _ _ h3

theorem J.noJobAt (h : J I M) {t : T} {cl : Call} {s n : Nat} {k : Option Nat → CP Nat} (ht : M.thr t = some (cl, .act (.ask s n) k))
    (hx : ∀ x, L.place s = some x → M.job x.1 = none) : NoJob M t := by
  intro r j hj hw
  rcases h.waits hj hw with ⟨cl', s', n', k', q, h3, h4, -⟩ | ⟨cl', s', p, n', k', q, h3, -⟩
  · rw [ht] at h3
    injection h3 with h3
    injection h3 with _ h3
    injection h3 with h3 _
    injection h3 with h3 _
    subst h3
    have := hx _ h4
    rw [hj] at this
    cases this
  · rw [ht] at h3
    injection h3 with h3
    injection h3 with _ h3
    injection h3 with h3 _
    cases h3

theorem J.noJobHand (h : J I M) {t : T} {cl : Call} {s p : Nat} {n : Option Nat} {k : Unit → CP Nat} (ht : M.thr t = some (cl, .act (.hand s p n) k))
    (hx : ∀ x, L.place s = some x → M.job x.1 = none) : NoJob M t := by
  intro r j hj hw
  rcases h.waits hj hw with ⟨cl', s', n', k', q, h3, -⟩ | ⟨cl', s', p', n', k', q, h3, h4, -⟩
  · rw [ht] at h3
    injection h3 with h3
    injection h3 with _ h3
    injection h3 with h3 _
    cases h3
  · rw [ht] at h3
    injection h3 with h3
    injection h3 with _ h3
    injection h3 with h3 _
    injection h3 with h3 _
    subst h3
    have := hx _ h4
    rw [hj] at this
    cases this
end

/-! ## The relation with the facade on abstract strategies -/

/-- A request of `t` to take back memory is being carried out. -/
def Hands (job : ∀ r, Option (Job T (L.arr r))) (t : T) : Prop := ∃ r j q p, job r = some j ∧ j.who = some t ∧ j.task = .use q (.dealloc p)

/-- The state of the facade on abstract strategies: for it, memory has been taken back as soon
as the request has begun. -/
def abs (M : MS L T) (held : List Blk) (th : T → Option (Call × CP Nat)) : Thr.MS T :=
  ⟨⟨M.am, ⟨held, M.S.mem⟩, M.st, M.cell, M.top⟩, th, M.own, M.box⟩

structure R (M : MS L T) (held : List Blk) (th : T → Option (Call × CP Nat)) : Prop where
  held : ∀ b, b ∈ held ↔ ∃ x, L.place b.own = some x ∧ (b.ptr, b.size) ∈ M.live x
  thr : ∀ t, (Hands M.job t ∧ ∃ cl s p n k, M.thr t = some (cl, .act (.hand s p n) k) ∧ th t = some (cl, k ())) ∨ (¬Hands M.job t ∧ th t = M.thr t)

theorem NoJob.hands {M : MS L T} {t : T} (h : NoJob M t) : ¬Hands M.job t := by
  rintro ⟨r, j, q, p, hj, hw, -⟩
  exact h r j hj hw

theorem R.same {M : MS L T} {held : List Blk} {th : T → Option (Call × CP Nat)} (h : R M held th) {t : T} (hn : NoJob M t) : th t = M.thr t := by
  rcases h.thr t with h | h
  · exact absurd h.1 hn.hands
  · exact h.2

theorem R.agree {M : MS L T} {held : List Blk} {th : T → Option (Call × CP Nat)} (h : R M held th) {m : Nat → Nat} (hm : M.Keeps m) : Agree held M.S.mem m := by
  intro b hb q h1 h2
  obtain ⟨x, -, h3⟩ := (h.held b).1 hb
  exact hm x _ h3 q h1 h2

section
variable [DecidableEq T] {I : Invs L} {M : MS L T} {held : List Blk} {th : T → Option (Call × CP Nat)}

/-- A thread for which no request is carried out goes on. -/
theorem R.go (h : R M held th) {t : T} {o : Option (Call × CP Nat)} (hn : NoJob M t) : R { M with thr := set M.thr t o } held (set th t o) := by
  refine ⟨h.held, fun u => ?_⟩
  dsimp only
  by_cases hu : u = t
  · subst hu
    rw [set_same, set_same]
    exact .inr ⟨hn.hands, rfl⟩
  · rw [set_other _ _ hu, set_other _ _ hu]
    exact h.thr u

theorem serves_thr {S : St L} {thr : T → Option (Call × CP Nat)} {r : Nat} {j : Job T (L.arr r)} (h : Serves S thr r j) {t : T} {o : Option (Call × CP Nat)}
    (hn : j.who ≠ some t) : Serves S (set thr t o) r j := by
  obtain ⟨who, task, todo⟩ := j
  cases who with
  | none =>
    cases task with
    | other o => exact h
    | use q u => exact h
  | some u =>
    have hu : u ≠ t := fun e => hn (by rw [e])
    cases task with
    | other o => exact h
    | use q w =>
      cases w with
      | alloc n =>
        obtain ⟨cl, s, k, h1, h2⟩ := h
        exact ⟨cl, s, k, (set_other _ _ hu).trans h1, h2⟩
      | dealloc p =>
        obtain ⟨cl, s, n, k, h1, h2⟩ := h
        exact ⟨cl, s, n, k, (set_other _ _ hu).trans h1, h2⟩

theorem J.go (h : J I M) {t : T} {o : Option (Call × CP Nat)} (hn : NoJob M t) : J I { M with thr := set M.thr t o } :=
  ⟨h.grp, h.world, h.built, fun r j hj => serves_thr (h.jobs r j hj) (hn r j hj)⟩

theorem serves_f {S S' : St L} {thr : T → Option (Call × CP Nat)} {r : Nat} {j : Job T (L.arr r)} (h : Serves S thr r j) (hf : S'.f r = S.f r) : Serves S' thr r j := by
  have hu : ∀ q, S'.user ⟨r, q⟩ = S.user ⟨r, q⟩ := fun q => by unfold St.user; dsimp only; rw [hf]
  have hb : ∀ q, S'.built ⟨r, q⟩ = S.built ⟨r, q⟩ := fun q => by unfold St.built; dsimp only; rw [hf]
  unfold Serves at h ⊢
  split
  · rw [hb]; simpa [*] using h
  · rw [hu]; simpa [*] using h
  · trivial
  · simp_all

/-- What a group does leaves the others alone. -/
theorem ready_ne {S S' : St L} {job : ∀ r, Option (Job T (L.arr r))} {r k : Nat} {j : Option (Job T (L.arr r))} (h : Ready I S job k) (hk : k ≠ r) (hf : S'.f k = S.f k)
    (hH : S'.H k = S.H k) : Ready I S' (updJ job r j) k := by
  unfold Ready at h ⊢
  rw [updJ_ne hk, hf, hH]
  exact h

/-- Actions that are no requests to strategies. -/
theorem local_sim (hI : I.Ok) (h : J I M) (hr : R M held th) {a : Act} {x : a.Ans} {M' : MS L T} (hl : Local a x M M') :
    Thr.Does a x (abs M held th).sh (abs M' held th).sh ∧ J I M' ∧ R M' held th ∧ M'.thr = M.thr ∧ M'.own = M.own ∧ M'.box = M.box ∧ M'.job = M.job := by
  cases hl with
  | @zeroQ p _ hj =>
    have hz : ∀ p, M.S.fromZero p = true ↔ ∃ o ∈ M.S.H 0, o.1 ≤ p ∧ p < o.1 + o.2 := by
      have hg := h.grp 0
      unfold Ready at hg
      rw [hj] at hg
      exact (hI 0).2.2 _ _ hg
    refine ⟨.zeroQ ?_ ?_, h, hr, rfl, rfl, rfl, rfl⟩
    · rintro ⟨b, hb, h1, h2, h3⟩
      obtain ⟨x, h4, h5⟩ := (hr.held b).1 hb
      unfold Lay.place at h4
      rw [if_pos h1] at h4
      injection h4 with h4
      subst h4
      obtain ⟨-, o, ho, hw⟩ := h.cov hI h5
      refine (hz p).2 ⟨o, ho, ?_⟩
      unfold Within at hw
      simp only at hw
      omega
    · rintro ⟨b, hb, h1, h2, h3⟩
      obtain ⟨x, h4, h5⟩ := (hr.held b).1 hb
      unfold Lay.place at h4
      rw [if_neg h1] at h4
      cases hp : L.spot b.own with
      | none => rw [hp] at h4; cases h4
      | some y =>
        rw [hp] at h4
        injection h4 with h4
        subst h4
        obtain ⟨-, o, ho, hw⟩ := h.cov hI h5
        cases hf : M.S.fromZero p with
        | false => rfl
        | true =>
          obtain ⟨o', ho', h6⟩ := (hz p).1 hf
          have := h.world.cross 0 (y.1 + 1) (by omega) o' ho' o ho
          unfold Within at hw
          unfold Disj at this
          simp only at hw
          omega
  | cpy => exact ⟨.cpy, ⟨h.grp, h.world, h.built, h.jobs⟩, ⟨hr.held, hr.thr⟩, rfl, rfl, rfl, rfl⟩
  | fill => exact ⟨.fill, ⟨h.grp, h.world, h.built, h.jobs⟩, ⟨hr.held, hr.thr⟩, rfl, rfl, rfl, rfl⟩
  | stat => exact ⟨.stat, ⟨h.grp, h.world, h.built, h.jobs⟩, ⟨hr.held, hr.thr⟩, rfl, rfl, rfl, rfl⟩
  | put hb => exact ⟨.put hb, ⟨h.grp, h.world, h.built, h.jobs⟩, ⟨hr.held, hr.thr⟩, rfl, rfl, rfl, rfl⟩
  | pullOk ha => exact ⟨.pullOk ha, ⟨h.grp, h.world, h.built, h.jobs⟩, ⟨hr.held, hr.thr⟩, rfl, rfl, rfl, rfl⟩
  | pullNone ha => exact ⟨.pullNone ha, ⟨h.grp, h.world, h.built, h.jobs⟩, ⟨hr.held, hr.thr⟩, rfl, rfl, rfl, rfl⟩
  | seekOk ha => exact ⟨.seekOk (S := (abs M held th).sh) ha, ⟨h.grp, h.world, h.built, h.jobs⟩, ⟨hr.held, hr.thr⟩, rfl, rfl, rfl, rfl⟩
  | seekNone ha => exact ⟨.seekNone ha, ⟨h.grp, h.world, h.built, h.jobs⟩, ⟨hr.held, hr.thr⟩, rfl, rfl, rfl, rfl⟩
  | look => exact ⟨.look (S := (abs M held th).sh), h, hr, rfl, rfl, rfl, rfl⟩
  | peek => exact ⟨.peek (S := (abs M held th).sh), h, hr, rfl, rfl, rfl, rfl⟩

/-- A request begins. -/
theorem J.start (hI : I.Ok) (h : J I M) {r : Nat} {w : Option T} {k : Task (L.arr r)} (hj : M.job r = none) (hc : (L.arr r).sys.can k.cmd (M.S.f r))
    (hk : ∀ o, k = .other o → (L.arr r).req o = .other) (hs : Serves M.S M.thr r ⟨w, k, (L.arr r).sys.run k.cmd (M.S.f r)⟩) :
    J I { M with job := updJ M.job r (some ⟨w, k, (L.arr r).sys.run k.cmd (M.S.f r)⟩) } := by
  refine ⟨fun i => ?_, h.world, h.built, fun i j hij => ?_⟩
  · by_cases hi : i = r
    · subst hi
      have hg := h.grp i
      unfold Ready at hg ⊢
      rw [hj] at hg
      dsimp only
      rw [updJ_same]
      exact Busy.start (hI i).1 (hI i).2.1 hg hc (h.world.disj i) (h.world.real i) hk
    · exact ready_ne (h.grp i) hi rfl rfl
  · dsimp only at hij ⊢
    by_cases hi : i = r
    · subst hi
      rw [updJ_same] at hij
      injection hij with hij
      subst hij
      exact hs
    · rw [updJ_ne hi] at hij
      exact h.jobs i j hij

/-- A request goes on. -/
theorem J.work (h : J I M) {r : Nat} {w : Option T} {k : Task (L.arr r)} {todo todo' : Prog (Option Nat × (L.arr r).sys.σ)} {O : Held} {m : Nat → Nat}
    (hj : M.job r = some ⟨w, k, todo⟩) (hw : Nest.World (Prog.put M.S.H r O)) (hb : Busy (I r) (M.S.f r) O k todo') :
    J I { M with S := ⟨M.S.f, Prog.put M.S.H r O, m⟩, job := updJ M.job r (some ⟨w, k, todo'⟩) } := by
  refine ⟨fun i => ?_, hw, h.built, fun i j hij => ?_⟩
  · by_cases hi : i = r
    · subst hi
      unfold Ready
      dsimp only
      rw [updJ_same, Prog.put_same]
      exact hb
    · exact ready_ne (h.grp i) hi rfl (Prog.put_ne hi)
  · dsimp only at hij ⊢
    by_cases hi : i = r
    · subst hi
      rw [updJ_same] at hij
      injection hij with hij
      subst hij
      have := h.jobs i _ hj
      exact this
    · rw [updJ_ne hi] at hij
      exact h.jobs i j hij

theorem R.work (hr : R M held th) {r : Nat} {w : Option T} {k : Task (L.arr r)} {todo todo' : Prog (Option Nat × (L.arr r).sys.σ)} {H : Nat → Held} {m : Nat → Nat}
    (hj : M.job r = some ⟨w, k, todo⟩) : R { M with S := ⟨M.S.f, H, m⟩, job := updJ M.job r (some ⟨w, k, todo'⟩) } held th := by
  refine ⟨fun b => ?_, fun t => ?_⟩
  · rw [hr.held b]
    have hl : ∀ x, MS.live { M with S := ⟨M.S.f, H, m⟩, job := updJ M.job r (some ⟨w, k, todo'⟩) } x = M.live x := by
      rintro ⟨i, q⟩
      by_cases hi : i = r
      · subst hi
        rw [live_job (j := ⟨w, k, todo'⟩) updJ_same, live_job hj]
        rfl
      · exact live_congr (updJ_ne hi) rfl
    simp only [hl]
  · have hh : Hands (updJ M.job r (some ⟨w, k, todo'⟩)) t ↔ Hands M.job t := by
      constructor
      · rintro ⟨i, j, q, p, h1, h2, h3⟩
        by_cases hi : i = r
        · subst hi
          rw [updJ_same] at h1
          injection h1 with h1
          subst h1
          exact ⟨i, _, q, p, hj, h2, h3⟩
        · rw [updJ_ne hi] at h1
          exact ⟨i, j, q, p, h1, h2, h3⟩
      · rintro ⟨i, j, q, p, h1, h2, h3⟩
        by_cases hi : i = r
        · subst hi
          rw [hj] at h1
          injection h1 with h1
          subst h1
          exact ⟨i, ⟨w, k, todo'⟩, q, p, updJ_same, h2, h3⟩
        · exact ⟨i, j, q, p, (updJ_ne hi).trans h1, h2, h3⟩
    dsimp only
    rw [hh]
    exact hr.thr t

/-- A request that takes nothing back begins. -/
theorem R.start (hr : R M held th) {r : Nat} {j : Job T (L.arr r)} (hj : M.job r = none) (hs : ∀ U, j.task.stay U = U) (hd : ∀ q p, j.task ≠ .use q (.dealloc p)) :
    R { M with job := updJ M.job r (some j) } held th := by
  refine ⟨fun b => ?_, fun t => ?_⟩
  · rw [hr.held b]
    have hl : ∀ x, MS.live { M with job := updJ M.job r (some j) } x = M.live x := by
      rintro ⟨i, q⟩
      by_cases hi : i = r
      · subst hi
        rw [live_job (j := j) updJ_same, live_free hj, hs]
      · exact live_congr (updJ_ne hi) rfl
    simp only [hl]
  · have hh : Hands (updJ M.job r (some j)) t ↔ Hands M.job t := by
      constructor
      · rintro ⟨i, j', q, p, h1, h2, h3⟩
        by_cases hi : i = r
        · subst hi
          rw [updJ_same] at h1
          injection h1 with h1
          subst h1
          exact absurd h3 (hd q p)
        · rw [updJ_ne hi] at h1
          exact ⟨i, j', q, p, h1, h2, h3⟩
      · rintro ⟨i, j', q, p, h1, h2, h3⟩
        have hi : i ≠ r := by
          rintro rfl
          rw [hj] at h1
          cases h1
        exact ⟨i, j', q, p, (updJ_ne hi).trans h1, h2, h3⟩
    dsimp only
    rw [hh]
    exact hr.thr t
/-- A request is done. -/
theorem J.finish (h : J I M) {r : Nat} {w : Option T} {k : Task (L.arr r)} {v : Option Nat} {u : (L.arr r).sys.σ} {m : Nat → Nat}
    (hj : M.job r = some ⟨w, k, .ret (v, u)⟩) : J I { M with S := M.S.set r u M.S.H m, job := updJ M.job r none } := by
  have hb : Busy (I r) (M.S.f r) (M.S.H r) k (.ret (v, u)) := by
    have := h.grp r
    unfold Ready at this
    rw [hj] at this
    exact this
  have hs := h.jobs r _ hj
  refine ⟨fun i => ?_, h.world, ?_, fun i j hij => ?_⟩
  · by_cases hi : i = r
    · subst hi
      unfold Ready
      dsimp only
      rw [updJ_same]
      show I i (upd (T := fun r => (L.arr r).sys) M.S.f i u i) (M.S.H i)
      rw [upd_same (T := fun r => (L.arr r).sys)]
      exact hb.wpa.1
    · exact ready_ne (h.grp i) hi (upd_ne (T := fun r => (L.arr r).sys) hi) rfl
  · rintro ⟨i, q⟩ hne
    dsimp only at hne ⊢
    by_cases hi : i = r
    · subst hi
      rw [user_set_same.1] at hne
      rw [user_set_same.2]
      cases k with
      | other o =>
        have ho : (L.arr i).Changes (M.S.f i) none (fun _ U => U) (v, u) := hb.out
        refine ho.1 q (h.built ⟨i, q⟩ ?_)
        have he := ho.2.1 q fun x hx => by cases hx
        dsimp only at he
        rw [he] at hne
        exact hne
      | use q' use =>
        have ho : (L.arr i).Changes (M.S.f i) (some q') use.req.after (v, u) := hb.out
        refine ho.1 q ?_
        by_cases hq : q = q'
        · subst hq
          cases use with
          | alloc n =>
            cases w with
            | none => exact hs.elim
            | some t =>
              obtain ⟨cl, s, k, h1, h2, h3⟩ := hs
              exact h3
          | dealloc p =>
            cases w with
            | none => exact hs.elim
            | some t =>
              obtain ⟨cl, s, n, k, h1, h2, h3⟩ := hs
              refine h.built ⟨i, q⟩ fun he => ?_
              rw [he] at h3
              cases h3
        · refine h.built ⟨i, q⟩ ?_
          have he := ho.2.1 q fun x hx e => hq (by injection hx with hx; rw [e, hx])
          dsimp only at he
          rw [he] at hne
          exact hne
    · rw [(user_set_ne hi).1] at hne
      rw [(user_set_ne hi).2]
      exact h.built ⟨i, q⟩ hne
  · dsimp only at hij ⊢
    by_cases hi : i = r
    · subst hi
      rw [updJ_same] at hij
      cases hij
    · rw [updJ_ne hi] at hij
      exact serves_f (h.jobs i j hij) (upd_ne (T := fun r => (L.arr r).sys) hi)

/-- The thread that waited for it. -/
theorem J.noJobAfter (h : J I M) {r : Nat} {j : Job T (L.arr r)} {t : T} {S : St L} (hj : M.job r = some j) (hw : j.who = some t) :
    NoJob { M with S := S, job := updJ M.job r none } t := by
  intro i j' hij hw'
  dsimp only at hij
  by_cases hi : i = r
  · subst hi
    rw [updJ_same] at hij
    cases hij
  · rw [updJ_ne hi] at hij
    exact hi (h.one hj hw hij hw').symm

/-- The requests of the other threads. -/
theorem hands_after {r : Nat} {j : Job T (L.arr r)} (hj : M.job r = some j) {t : T} (ht : j.who ≠ some t) :
    Hands (updJ M.job r none) t ↔ Hands M.job t := by
  constructor
  · rintro ⟨i, j', q, p, h1, h2, h3⟩
    by_cases hi : i = r
    · subst hi
      rw [updJ_same] at h1
      cases h1
    · rw [updJ_ne hi] at h1
      exact ⟨i, j', q, p, h1, h2, h3⟩
  · rintro ⟨i, j', q, p, h1, h2, h3⟩
    have hi : i ≠ r := by
      rintro rfl
      rw [hj] at h1
      injection h1 with h1
      subst h1
      exact ht h2
    exact ⟨i, j', q, p, (updJ_ne hi).trans h1, h2, h3⟩

theorem live_after {r : Nat} {u : (L.arr r).sys.σ} {H : Nat → Held} {m : Nat → Nat} {i : Nat} {q : (L.arr i).Pos} (hi : i ≠ r) :
    MS.live { M with S := M.S.set r u H m, job := updJ M.job r none } ⟨i, q⟩ = M.live ⟨i, q⟩ :=
  live_congr (updJ_ne hi) (upd_ne (T := fun r => (L.arr r).sys) hi)

theorem live_done {r : Nat} {u : (L.arr r).sys.σ} {H : Nat → Held} {m : Nat → Nat} {q : (L.arr r).Pos} :
    MS.live { M with S := M.S.set r u H m, job := updJ M.job r none } ⟨r, q⟩ = (L.arr r).user q u := by
  rw [live_free updJ_same]
  exact user_set_same.1

/-- The states that can be reached are those of the facade on abstract strategies. -/
theorem sim (hL : L.Ok) (hI : I.Ok) {c : Mgr.Cfg} {Pre : List Rec → Call → Prop} {M : MS L T} (h : Reach c Pre M) :
    ∃ held th, Thr.Reach c Pre (abs M held th) ∧ R M held th ∧ J I M := by
  induction h with
  | init =>
    have hu : ∀ x, (MS.new L T).live x = [] := fun x => (L.arr x.1).user_init x.2
    refine ⟨[], fun _ => none, .init, ⟨fun b => ?_, fun t => .inr ⟨?_, rfl⟩⟩, fun r => (hI r).1.init, ⟨?_, ?_, ?_⟩, fun x hx => ?_, fun r j hj => (by cases hj)⟩
    · refine ⟨fun h => (by cases h), ?_⟩
      rintro ⟨x, -, hx⟩
      rw [hu x] at hx
      cases hx
    · rintro ⟨r, j, q, p, hj, -⟩
      cases hj
    · exact fun r => List.Pairwise.nil
    · intro r o ho
      cases ho
    · intro r k _ x hx
      cases hx
    · exact absurd ((L.arr x.1).user_init x.2) hx
  | @step M M' t _ hs ih =>
    obtain ⟨held, th, hA, hr, h⟩ := ih
    cases hs with
    | @start cl _ hn hp =>
      have hj : NoJob M t := h.noJob (fun _ _ _ _ e => by rw [hn] at e; cases e) fun _ _ _ _ _ e => by rw [hn] at e; cases e
      exact ⟨held, _, hA.step (Thr.Step.start (S := abs M held th) (t := t) ((hr.same hj).trans hn) hp), hr.go hj, h.go hj⟩
    | @ret cl o _ ht =>
      have hj : NoJob M t := h.noJob (fun _ _ _ _ e => by rw [ht] at e; injection e with e; injection e with _ e; cases e)
        fun _ _ _ _ _ e => by rw [ht] at e; injection e with e; injection e with _ e; cases e
      have hg := h.go hj (o := none)
      have hrg := hr.go hj (o := none)
      exact ⟨held, _, hA.step (Thr.Step.ret (S := abs M held th) (t := t) ((hr.same hj).trans ht)), ⟨hrg.held, hrg.thr⟩, hg.grp, hg.world, hg.built, hg.jobs⟩
    | @give x _ hn hx =>
      have hj : NoJob M t := h.noJob (fun _ _ _ _ e => by rw [hn] at e; cases e) fun _ _ _ _ _ e => by rw [hn] at e; cases e
      exact ⟨held, th, hA.step (Thr.Step.give (S := abs M held th) (t := t) ((hr.same hj).trans hn) hx), ⟨hr.held, hr.thr⟩, h.grp, h.world, h.built, h.jobs⟩
    | @take x _ hn hx =>
      have hj : NoJob M t := h.noJob (fun _ _ _ _ e => by rw [hn] at e; cases e) fun _ _ _ _ _ e => by rw [hn] at e; cases e
      exact ⟨held, th, hA.step (Thr.Step.take (S := abs M held th) (t := t) ((hr.same hj).trans hn) hx), ⟨hr.held, hr.thr⟩, h.grp, h.world, h.built, h.jobs⟩
    | @write x m _ hn hx hm =>
      have hj : NoJob M t := h.noJob (fun _ _ _ _ e => by rw [hn] at e; cases e) fun _ _ _ _ _ e => by rw [hn] at e; cases e
      exact ⟨held, th, hA.step (Thr.Step.write (S := abs M held th) (t := t) ((hr.same hj).trans hn) hx hm), ⟨hr.held, hr.thr⟩, h.grp, h.world, h.built, h.jobs⟩
    | @act cl a k x _ M1 ht hl =>
      have hj : NoJob M t := by
        refine h.noJob (fun _ _ _ _ e => ?_) fun _ _ _ _ _ e => ?_ <;>
        · rw [ht] at e
          injection e with e
          injection e with _ e
          injection e with e _
          subst e
          cases hl
      obtain ⟨h1, h2, h3, h4, h5, h6, h7⟩ := local_sim hI h hr hl
      have hj' : NoJob M1 t := by
        unfold NoJob
        rw [h7]
        exact hj
      refine ⟨held, set th t (some (cl, k x)), ?_, h3.go hj', h2.go hj'⟩
      have hst := hA.step (Thr.Step.act (S := abs M held th) (t := t) ((hr.same hj).trans ht) h1)
      have he : abs { M1 with thr := set M1.thr t (some (cl, k x)) } held (set th t (some (cl, k x))) =
          { abs M held th with sh := (abs M1 held th).sh, thr := set (abs M held th).thr t (some (cl, k x)) } := by
        unfold abs
        dsimp only
        rw [h5, h6]
      rw [he]
      exact hst
    | @idle cl s n k _ ht hx =>
      have hj : NoJob M t := h.noJobAt ht fun x hxp => (hx x hxp).1
      exact ⟨held, _, hA.step (Thr.Step.act (S := abs M held th) (t := t) (k := k) ((hr.same hj).trans ht) (.askFail fun _ _ _ _ _ => rfl)), hr.go hj, h.go hj⟩
    | @ask cl s n k r q _ ht hx hj hc =>
      refine ⟨held, th, hA, hr.start hj (fun _ => rfl) (fun _ _ e => (by cases e)), ?_⟩
      refine h.start hI (k := .use q (.alloc n)) hj hc (fun _ e => by cases e) ?_
      exact ⟨cl, s, k, ht, hx, ((L.arr r).can_alloc.1 hc).1⟩
    | @hand cl s p n k r q _ ht hx hj hin hc =>
      have hn : NoJob M t := h.noJobHand ht fun x hxp => by
        rw [hx] at hxp
        injection hxp with hxp
        subst hxp
        exact hj
      have hlive : (p, n) ∈ M.live ⟨r, q⟩ := by rw [live_free hj]; exact hin
      have hlv : ∀ {i : Nat} {q' : (L.arr i).Pos}, i ≠ r →
          MS.live { M with job := updJ M.job r (some ⟨some t, .use q (.dealloc p), M.S.run ⟨r, q⟩ (.dealloc p)⟩) } ⟨i, q'⟩ = M.live ⟨i, q'⟩ :=
        fun hi => live_congr (updJ_ne hi) rfl
      have hb : (⟨s, p, n⟩ : Blk) ∈ held := (hr.held _).2 ⟨_, hx, hlive⟩
      have hst := hA.step (Thr.Step.act (S := abs M held th) (t := t) (k := k) ((hr.same hn).trans ht)
        (.hand (m := M.S.mem) ⟨⟨s, p, n⟩, hb, rfl, rfl, by rintro m ⟨⟩; rfl⟩ fun _ _ _ _ _ => rfl))
      refine ⟨dropB p held, set th t (some (cl, k ())), hst, ⟨fun b => ?_, fun u => ?_⟩, ?_⟩
      · rw [Whole.mem_dropB, hr.held b]
        constructor
        · rintro ⟨⟨⟨i, q'⟩, h1, h2⟩, h3⟩
          refine ⟨⟨i, q'⟩, h1, ?_⟩
          by_cases hi : i = r
          · subst hi
            rw [live_free hj] at h2
            rw [live_job (M := { M with job := _ }) updJ_same]
            exact mem_drop.2 ⟨h2, h3⟩
          · rw [hlv hi]
            exact h2
        · rintro ⟨⟨i, q'⟩, h1, h2⟩
          by_cases hi : i = r
          · subst hi
            rw [live_job (M := { M with job := _ }) updJ_same] at h2
            have h3 := mem_drop.1 h2
            exact ⟨⟨⟨i, q'⟩, h1, by rw [live_free hj]; exact h3.1⟩, h3.2⟩
          · rw [hlv hi] at h2
            refine ⟨⟨⟨i, q'⟩, h1, h2⟩, fun e => ?_⟩
            rw [e] at h2
            exact hi (congrArg Sigma.fst (h.inj hI hlive h2).1).symm
      · dsimp only
        by_cases hu : u = t
        · subst hu
          left
          refine ⟨⟨r, _, q, p, updJ_same, rfl, rfl⟩, cl, s, p, some n, k, ht, ?_⟩
          rw [set_same]
        · rw [set_other _ _ hu]
          have hh : Hands (updJ M.job r (some ⟨some t, .use q (.dealloc p), M.S.run ⟨r, q⟩ (.dealloc p)⟩)) u ↔ Hands M.job u := by
            constructor
            · rintro ⟨i, j', q', p', h1, h2, h3⟩
              by_cases hi : i = r
              · subst hi
                rw [updJ_same] at h1
                injection h1 with h1
                subst h1
                injection h2 with h2
                exact absurd h2.symm hu
              · rw [updJ_ne hi] at h1
                exact ⟨i, j', q', p', h1, h2, h3⟩
            · rintro ⟨i, j', q', p', h1, h2, h3⟩
              have hi : i ≠ r := by
                rintro rfl
                rw [hj] at h1
                cases h1
              exact ⟨i, j', q', p', (updJ_ne hi).trans h1, h2, h3⟩
          rw [hh]
          exact hr.thr u
      · exact h.start hI (k := .use q (.dealloc p)) hj hc (fun _ e => by cases e) ⟨cl, s, n, k, ht, hx, hin⟩
    | @asked cl s n k r q v u m _ ht hj hm =>
      have hs := h.jobs r _ hj
      obtain ⟨cl', s', k', h1, h2, h3⟩ := hs
      rw [ht] at h1
      injection h1 with h1
      injection h1 with _ h1
      injection h1 with h1 h1'
      injection h1 with h1
      subst h1
      have hb : Busy (I r) (M.S.f r) (M.S.H r) (.use q (.alloc n)) (.ret (v, u)) := by
        have := h.grp r
        unfold Ready at this
        rw [hj] at this
        exact this
      have ho : (L.arr r).Changes (M.S.f r) (some q) (Use.req (.alloc n)).after (v, u) := hb.out
      have hv : v ≠ some 0 := hb.wpa.2 (hL.place_solid h2)
      have hf := h.finish (m := m) hj
      have hn := h.noJobAfter (S := M.S.set r u M.S.H m) hj rfl
      have hth : th t = M.thr t := by
        rcases hr.thr t with ⟨-, cl'', s'', p'', n'', k'', h4, -⟩ | h4
        · rw [ht] at h4
          injection h4 with h4
          injection h4 with _ h4
          injection h4 with h4 _
          cases h4
        · exact h4.2
      have hag := hr.agree hm
      have hold : ∀ q', M.live ⟨r, q'⟩ = (L.arr r).user q' (M.S.f r) := fun q' => live_job hj
      have hthr : ∀ (held' : List Blk), (∀ b, b ∈ held' ↔ ∃ x, L.place b.own = some x ∧ (b.ptr, b.size) ∈
          MS.live { M with S := M.S.set r u M.S.H m, job := updJ M.job r none } x) →
          R { M with S := M.S.set r u M.S.H m, job := updJ M.job r none, thr := set M.thr t (some (cl, k v)) } held' (set th t (some (cl, k v))) := by
        intro held' hh'
        refine ⟨hh', fun w => ?_⟩
        dsimp only
        by_cases hw : w = t
        · subst hw
          rw [set_same, set_same]
          exact .inr ⟨hn.hands, rfl⟩
        · rw [set_other _ _ hw, set_other _ _ hw, hands_after hj (fun e => hw (by injection e with e; exact e.symm))]
          exact hr.thr w
      cases v with
      | none =>
        have hlv : ∀ x, MS.live { M with S := M.S.set r u M.S.H m, job := updJ M.job r none } x = M.live x := by
          rintro ⟨i, q'⟩
          by_cases hi : i = r
          · subst hi
            rw [live_done, hold]
            by_cases hq : q' = q
            · subst hq
              exact ho.2.2 q' rfl
            · exact ho.2.1 q' fun x hx e => hq (by injection hx with hx; rw [e, hx])
          · exact live_after hi
        refine ⟨held, set th t (some (cl, k none)), hA.step (Thr.Step.act (S := abs M held th) (t := t) (k := k) (hth.trans ht) (.askFail hag)),
          hthr held (fun b => ?_), hf.go hn⟩
        rw [hr.held b]
        simp only [hlv]
      | some p =>
        have hp : p ≠ 0 := fun e => hv (by rw [e])
        have huq : (L.arr r).user q u = (p, n) :: (L.arr r).user q (M.S.f r) := by
          have := ho.2.2 q rfl
          refine this.trans ?_
          show (if p = 0 then _ else _) = _
          rw [if_neg hp]
        have hne : ∀ q', q' ≠ q → (L.arr r).user q' u = (L.arr r).user q' (M.S.f r) := fun q' hq =>
          ho.2.1 q' fun x hx e => hq (by injection hx with hx; rw [e, hx])
        have hin : (p, n) ∈ MS.live { M with S := M.S.set r u M.S.H m, job := updJ M.job r none } ⟨r, q⟩ := by
          rw [live_done, huq]
          exact List.mem_cons_self
        have hsub : ∀ y, ∀ b ∈ M.live y, b ∈ MS.live { M with S := M.S.set r u M.S.H m, job := updJ M.job r none } y := by
          rintro ⟨i, q'⟩ b hb'
          by_cases hi : i = r
          · subst hi
            rw [hold] at hb'
            rw [live_done]
            by_cases hq : q' = q
            · subst hq
              rw [huq]
              exact List.mem_cons_of_mem _ hb'
            · rw [hne q' hq]
              exact hb'
          · rw [live_after hi]
            exact hb'
        have hfresh : Fresh p n (ranges held) := by
          refine ⟨hp, ?_, ?_⟩
          · obtain ⟨-, o, ho', hw⟩ := hf.cov hI hin
            have := h.world.real r o ho'
            unfold Within at hw
            simp only at hw
            omega
          · intro x hx
            obtain ⟨b, hb', rfl⟩ := List.mem_map.1 hx
            obtain ⟨y, hy, hby⟩ := (hr.held b).1 hb'
            by_cases hyx : y = ⟨r, q⟩
            · subst hyx
              have hsd := (((L.arr r).user_disj (hf.sound hI r).1).1 q)
              have hfr : (M.S.set r u M.S.H m).f r = u := upd_same (T := fun r => (L.arr r).sys)
              dsimp only at hsd
              rw [hfr, huq] at hsd
              rw [hold] at hby
              exact (List.pairwise_cons.1 hsd).1 _ hby
            · exact hf.disj hI hin (hsub y _ hby) (Ne.symm hyx)
        refine ⟨⟨s, p, n⟩ :: held, set th t (some (cl, k (some p))), hA.step (Thr.Step.act (S := abs M held th) (t := t) (k := k) (hth.trans ht) (.askOk hfresh hag)),
          hthr _ (fun b => ?_), hf.go hn⟩
        rw [List.mem_cons, hr.held b]
        constructor
        · rintro (rfl | ⟨y, h4, h5⟩)
          · exact ⟨_, h2, hin⟩
          · exact ⟨y, h4, hsub y _ h5⟩
        · rintro ⟨⟨i, q'⟩, h4, h5⟩
          by_cases hi : i = r
          · subst hi
            rw [live_done] at h5
            by_cases hq : q' = q
            · subst hq
              rw [huq] at h5
              rcases List.mem_cons.1 h5 with h5 | h5
              · left
                obtain ⟨o, p', n'⟩ := b
                injection h5 with h6 h7
                simp only at h6 h7 h4
                subst h6 h7
                rw [hL.place_inj h2 h4]
              · exact .inr ⟨⟨i, q'⟩, h4, by rw [hold]; exact h5⟩
            · rw [hne q' hq] at h5
              exact .inr ⟨⟨i, q'⟩, h4, by rw [hold]; exact h5⟩
          · rw [live_after hi] at h5
            exact .inr ⟨⟨i, q'⟩, h4, h5⟩
    | @handed cl s p n k r q v u m _ ht hj hm =>
      have hs := h.jobs r _ hj
      obtain ⟨cl', s', n', k', h1, h2, h3⟩ := hs
      have hb : Busy (I r) (M.S.f r) (M.S.H r) (.use q (.dealloc p)) (.ret (v, u)) := by
        have := h.grp r
        unfold Ready at this
        rw [hj] at this
        exact this
      have ho : (L.arr r).Changes (M.S.f r) (some q) (Use.req (.dealloc p)).after (v, u) := hb.out
      have hf := h.finish (m := m) hj
      have hn := h.noJobAfter (S := M.S.set r u M.S.H m) hj rfl
      refine ⟨held, th, hA.drift (m := m) (hr.agree hm), ⟨fun b => ?_, fun w => ?_⟩, hf.go hn⟩
      · rw [hr.held b]
        have hlv : ∀ x, MS.live { M with S := M.S.set r u M.S.H m, job := updJ M.job r none } x = M.live x := by
          rintro ⟨i, q'⟩
          by_cases hi : i = r
          · subst hi
            rw [live_done, live_job hj]
            by_cases hq : q' = q
            · subst hq
              exact ho.2.2 q' rfl
            · refine (ho.2.1 q' fun x hx e => hq (by injection hx with hx; rw [e, hx])).trans ?_
              refine (List.filter_eq_self.2 fun b hb' => ?_).symm
              have hd := ((L.arr i).user_disj (h.sound hI i).1).2 q q' (Ne.symm hq) _ h3 _ hb'
              have h4 := (h.sound hI i).2 _ ((L.arr i).mem_live.2 ⟨q, h3⟩)
              have h5 := (h.sound hI i).2 _ ((L.arr i).mem_live.2 ⟨q', hb'⟩)
              unfold Disj at hd
              simp only at hd h4 h5
              simp only [decide_eq_true_eq]
              omega
          · exact live_after hi
        show _ ↔ ∃ x, L.place b.own = some x ∧ (b.ptr, b.size) ∈ MS.live { M with S := M.S.set r u M.S.H m, job := updJ M.job r none } x
        simp only [hlv]
      · dsimp only
        by_cases hw : w = t
        · subst hw
          rw [set_same]
          refine .inr ⟨hn.hands, ?_⟩
          rcases hr.thr w with ⟨-, cl'', s'', p'', n'', k'', h4, h5⟩ | h4
          · rw [ht] at h4
            injection h4 with h4
            injection h4 with h4 h6
            injection h6 with h6 h7
            injection h6 with h8 h9 h10
            subst h4 h8 h9 h10
            rw [h5, h7]
          · exact absurd ⟨r, _, q, p, hj, rfl, rfl⟩ h4.1
        · rw [set_other _ _ hw, hands_after hj (fun e => hw (by injection e with e; exact e.symm))]
          exact hr.thr w
  | @work M M' r _ hw ih =>
    obtain ⟨held, th, hA, hr, h⟩ := ih
    have hbusy : ∀ {w k todo}, M.job r = some ⟨w, k, todo⟩ → Busy (I r) (M.S.f r) (M.S.H r) k todo := by
      intro w k todo hj
      have := h.grp r
      unfold Ready at this
      rw [hj] at this
      exact this
    cases hw with
    | @grow w k n c p m _ hj hf hm =>
      refine ⟨held, th, hA.drift (m := m) (hr.agree hm), hr.work hj, h.work hj (h.world.add hf) ((hbusy hj).grow ⟨hf.1, hf.2.1, hf.2.2 r⟩)⟩
    | @refuse w k n c m _ hj hm =>
      have hp : Prog.put M.S.H r (M.S.H r) = M.S.H := by
        funext i
        unfold Prog.put
        split
        · rename_i hi; rw [hi]
        · rfl
      refine ⟨held, th, hA.drift (m := m) (hr.agree hm), hr.work hj, ?_⟩
      have := h.work (m := m) hj (by rw [hp]; exact h.world) (hbusy hj).refuse
      rw [hp] at this
      exact this
    | @shrink w k p n c m _ hj hm =>
      exact ⟨held, th, hA.drift (m := m) (hr.agree hm), hr.work hj, h.work hj h.world.remove ((hbusy hj).shrink (h.world.disj r))⟩
    | @begin o _ hj hq hc =>
      exact ⟨held, th, hA, hr.start hj (fun _ => rfl) (fun _ _ e => (by cases e)), h.start hI (k := .other o) hj hc (fun _ e => by injection e with e; subst e; exact hq) trivial⟩
    | @done o v u m _ hj hm =>
      have ho : (L.arr r).Changes (M.S.f r) none (fun _ U => U) (v, u) := (hbusy hj).out
      refine ⟨held, th, hA.drift (m := m) (hr.agree hm), ⟨fun b => ?_, fun w => ?_⟩, h.finish hj⟩
      · rw [hr.held b]
        have hlv : ∀ x, MS.live { M with S := M.S.set r u M.S.H m, job := updJ M.job r none } x = M.live x := by
          rintro ⟨i, q'⟩
          by_cases hi : i = r
          · subst hi
            rw [live_done, live_job hj]
            exact ho.2.1 q' fun x hx => by cases hx
          · exact live_after hi
        simp only [hlv]
      · dsimp only
        rw [hands_after hj (fun e => by cases e)]
        exact hr.thr w
end

end Umpire.Full
