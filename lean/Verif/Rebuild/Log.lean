import Verif.Rebuild.Props
import Verif.Events.Props
/-!
# The registry after a replay, from the text of the log

Programs that create allocators and memory resources; the registry of names they build up; the
registry that replaying their log builds up.

Simplifications: an allocator is its class, tracking, parent and parameters.  Names come from
`getAllocator` and `makeAllocator`; aliases are not there (they are not recorded).  Memory
resources are those that `getAllocator` makes on demand.  The limit of 262144 allocators per log is
not there.
-/
set_option autoImplicit false
set_option linter.unusedSimpArgs false
namespace Umpire.Rebuild
open Umpire.Events (Event Str get set dec hexF Rec Logged Reads getEvents Sorted strLt)

/-- What a name stands for. -/
inductive Item
  | resource
  | alloc (tracked : Bool) (base : Str) (p : Par)
deriving DecidableEq, Repr

/-- `m_allocators_by_name`. -/
abbrev Reg := List (Str × Item)

/-- `isAllocator` (ResourceManager.cpp). -/
def Reg.has (r : Reg) (n : Str) : Bool := r.any (·.1 == n)

/-- `getAllocator(name)` (ResourceManager.cpp:188-212); `avail` are the names of the resources of
the build.  `none`: it throws. -/
def getAllocator (avail : List Str) (r : Reg) (n : Str) : Option Reg :=
  if r.has n then some r else if n ∈ avail then some ((n, .resource) :: r) else none

/-- `makeAllocator` (ResourceManager.inl:20-55). -/
def makeAllocator (r : Reg) (m : Made) : Option Reg :=
  if r.has m.name then none else some ((m.name, .alloc m.tracked m.base m.par) :: r)

/-- What a program does. -/
inductive Act
  | get (n : Str) (ref : Nat) (time : Int)
  | make (m : Made) (ref : Nat) (time : Int)
deriving Repr

/-- The other allocator that is passed to the constructor. -/
def Made.other (m : Made) : Option Str :=
  match m.strat with
  | .advisor _ acc _ => acc
  | _ => none

/-- A call of the program, with the events it records (ResourceManager.cpp:161-168,
ResourceManager.inl:39-48).  A program has only handles of allocators that exist.  A call that throws
leaves the registry alone. -/
def act (avail : List Str) (r : Reg) : Act → Reg × List Event
  | .get n ref t =>
    match getAllocator avail r n with
    | some r' => (r', if r.has n then [] else [resourceEvent ref n true t])
    | none => (r, [])
  | .make m ref t =>
    if r.has m.base && m.other.all (r.has ·) then
      match makeAllocator r m with
      | some r' => (r', [makeEvent ref m t])
      | none => (r, [])
    else (r, [])

/-- A program. -/
def acts (avail : List Str) : Reg → List Act → Reg × List Event
  | r, [] => (r, [])
  | r, a :: l => let x := act avail r a; let y := acts avail x.1 l; (y.1, x.2 ++ y.2)

/-- Look up the other allocator, if there is one. -/
def getOther (avail : List Str) (r : Reg) : Option Str → Option Reg
  | some n => getAllocator avail r n
  | none => some r

/-- Look up the handles, then call `makeAllocator`. -/
def remake (avail : List Str) (r : Reg) (m : Made) : Option Reg := do
  let r ← getAllocator avail r m.base
  let r ← getOther avail r m.other
  makeAllocator r m

/-- Compile one event of the log and run it (ReplayInterpreter.cpp:77-168, ReplayOperationManager.cpp:313-1061):
the events of creations; others are not looked at here.  `none`: the tool ends. -/
def redo (avail : List Str) (o : Opts) (major : Nat) (r : Reg) (e : Event) : Option Reg :=
  if e.cat = .operation ∧ e.name = b!"make_memory_resource" then
    match (compileResource e).map (make o) with
    | some (.got n) => getAllocator avail r n
    | _ => none
  else if e.cat = .operation ∧ e.name = b!"make_allocator" then
    match (compileMake false major e).map (make o) with
    | some (.made m) => remake avail r m
    | some .skipped => some r
    | _ => none
  else some r

/-- The creations of a log. -/
def redoAll (avail : List Str) (o : Opts) (major : Nat) : Reg → List Event → Option Reg
  | r, [] => some r
  | r, e :: l => (redo avail o major r e).bind fun r => redoAll avail o major r l

/-! ## Specification -/

/-- The registry with what the user of the tool asked for. -/
def Reg.chosen (o : Opts) (r : Reg) : Reg :=
  r.map fun x => (x.1, match x.2 with | .resource => .resource | .alloc t b p => .alloc t b (p.chosen o))

/-- Every call of the program compiles and survives. -/
def Act.Ok (o : Opts) : Act → Prop
  | .get n _ t => Fits n ∧ -2 ^ 63 ≤ t ∧ t < 2 ^ 63
  | .make m _ t => m.strat.Wf ∧ Faithful o m ∧ -2 ^ 63 ≤ t ∧ t < 2 ^ 63

/-- The creations among the records of a log. -/
def creations (rs : List Rec) : List Event :=
  rs.filterMap fun
    | .event e => if e.cat = .operation ∧ (e.name = b!"make_memory_resource" ∨ e.name = b!"make_allocator") then some e else none
    | _ => none

/-! ## Proofs -/

theorem chosen_has (o : Opts) (r : Reg) (n : Str) : (r.chosen o).has n = r.has n := by
  unfold Reg.chosen Reg.has
  rw [List.any_map]
  rfl

theorem redo_resource {avail : List Str} {o : Opts} {major ref : Nat} {r : Reg} {n : Str} {tr : Bool} {t : Int} (hf : Fits n) :
    redo avail o major r (resourceEvent ref n tr t) = getAllocator avail r n := by
  unfold redo
  rw [if_pos ⟨rfl, rfl⟩]
  have : compileResource (resourceEvent ref n tr t) = some ⟨.resource, true, n, [], 0, {}⟩ := by
    have : compileResource (resourceEvent ref n tr t) = (copyString n).bind fun n => some ⟨.resource, true, n, [], 0, {}⟩ := rfl
    rw [this, copy_fits hf]
    rfl
  rw [this]
  have : make o ⟨.resource, true, n, [], 0, {}⟩ = .got n := by
    unfold make
    rw [type_same (by simp) (by simp)]
  simp [this]

theorem putArgs_name (l : List Arg) : ∀ (i : Nat) (e : Event), (putArgs i l e).name = e.name ∧ (putArgs i l e).cat = e.cat ∧
    (putArgs i l e).tags = e.tags ∧ (putArgs i l e).time = e.time := by
  induction l with
  | nil => intro i e; exact ⟨rfl, rfl, rfl, rfl⟩
  | cons a l ih =>
    intro i e
    cases a <;> exact ih _ _

theorem redo_make {avail : List Str} {o : Opts} {major ref : Nat} {r : Reg} {m : Made} {t : Int} (h2 : 2 ≤ major) (hw : m.strat.Wf)
    (hf : Faithful o m) : ∃ m', Same o m m' ∧ (∀ s, m'.other = some s → m.other = some s ∨ m.base = s) ∧
      redo avail o major r (makeEvent ref m t) = remake avail r m' := by
  obtain ⟨m', h, hs⟩ := (rebuild_iff_partial o major ref m t h2 hw).2 hf
  refine ⟨m', hs, ?_, ?_⟩
  · intro s ho
    obtain ⟨n', tr', b', st'⟩ := m'
    cases st' with
    | advisor a acc dev =>
      simp only [Made.other] at ho
      subst ho
      have h4 := hs.2.2.2
      obtain ⟨n, tr, b, st⟩ := m
      cases st with
      | advisor a' acc' dev' =>
        simp only [Made.par, Par.chosen, Par.advisor.injEq, Option.getD_some] at h4
        simp only [Made.other]
        cases acc' with
        | none => exact .inr h4.2.1.symm
        | some s' => exact .inl (congrArg some h4.2.1.symm)
      | _ => simp [Made.par, Par.chosen] at h4
    | _ => simp [Made.other] at ho
  · unfold redo
    have hn := putArgs_name (.str m.base :: m.strat.args) 0
      { name := b!"make_allocator", cat := .operation,
        strs := set b!"type" (mangled m.strat.cls) (set b!"allocator_ref" (osPtr ref) []),
        nums := [(b!"introspection", if m.tracked then 1 else 0)],
        tags := set b!"replay" b!"true" (set b!"allocator_name" m.name []), time := t }
    have hname : (makeEvent ref m t).name = b!"make_allocator" := hn.1
    have hcat : (makeEvent ref m t).cat = .operation := hn.2.1
    rw [if_neg (by rw [hname]; simp), if_pos ⟨hcat, hname⟩]
    unfold rebuild at h
    split at h
    · rename_i x hx
      rw [hx]
      simp [h]
    · simp at h

theorem getAllocator_has {avail : List Str} {r : Reg} {n : Str} (h : r.has n = true) : getAllocator avail r n = some r := by
  unfold getAllocator
  rw [if_pos h]

theorem act_redo {avail : List Str} {o : Opts} {major : Nat} {r : Reg} {a : Act} (h2 : 2 ≤ major) (ha : a.Ok o) :
    redoAll avail o major (r.chosen o) (act avail r a).2 = some ((act avail r a).1.chosen o) := by
  cases a with
  | get n ref t =>
    unfold act
    simp only
    cases hh : r.has n with
    | true => rw [getAllocator_has hh]; rfl
    | false =>
      unfold getAllocator
      rw [hh]
      by_cases hm : n ∈ avail
      · simp only [if_neg (Bool.false_ne_true), if_pos hm, redoAll]
        rw [redo_resource ha.1]
        unfold getAllocator
        rw [chosen_has, hh, if_neg (Bool.false_ne_true), if_pos hm]
        rfl
      · simp only [if_neg (Bool.false_ne_true), if_neg hm]
        rfl
  | make m ref t =>
    unfold act
    simp only
    by_cases hb : (r.has m.base && m.other.all (r.has ·)) = true
    · rw [if_pos hb]
      rw [Bool.and_eq_true] at hb
      unfold makeAllocator
      by_cases hh : r.has m.name = true
      · simp only [if_pos hh]; rfl
      · simp only [if_neg hh, redoAll]
        obtain ⟨m', hs, ho, hr⟩ := redo_make (avail := avail) (ref := ref) (r := r.chosen o) (t := t) h2 ha.1 ha.2.1
        rw [hr]
        unfold remake
        rw [getAllocator_has (by rw [chosen_has, hs.2.2.1]; exact hb.1)]
        have hoo : ∀ s, m'.other = some s → r.has s = true := by
          intro s h
          rcases ho s h with h | h
          · have := hb.2; rw [h] at this; exact this
          · exact h ▸ hb.1
        have : getOther avail (r.chosen o) m'.other = some (r.chosen o) := by
          cases hm : m'.other with
          | none => rfl
          | some s => exact getAllocator_has (by rw [chosen_has]; exact hoo s hm)
        simp only [Option.bind_eq_bind, Option.bind_some, this]
        unfold makeAllocator
        rw [chosen_has, hs.1, if_neg hh, hs.2.1, hs.2.2.1, hs.2.2.2]
        rfl
    · rw [if_neg hb]
      rfl

theorem redoAll_append {avail : List Str} {o : Opts} {major : Nat} (l₁ l₂ : List Event) : ∀ r : Reg,
    redoAll avail o major r (l₁ ++ l₂) = (redoAll avail o major r l₁).bind fun r => redoAll avail o major r l₂ := by
  induction l₁ with
  | nil => intro r; rfl
  | cons e l ih =>
    intro r
    simp only [List.cons_append, redoAll]
    cases redo avail o major r e with
    | none => rfl
    | some r' => simp [ih]

/-- Replaying the creations of a program builds the registry of the program, name for name and
parameter for parameter. -/
theorem replay_registry_partial {avail : List Str} {o : Opts} {major : Nat} (h2 : 2 ≤ major) (l : List Act) : ∀ (r : Reg), (∀ a ∈ l, a.Ok o) →
    redoAll avail o major (r.chosen o) (acts avail r l).2 = some ((acts avail r l).1.chosen o) := by
  induction l with
  | nil => intro r _; rfl
  | cons a l ih =>
    intro r h
    simp only [acts]
    rw [redoAll_append, act_redo h2 (h a (by simp))]
    exact ih _ fun b hb => h b (by simp [hb])

/-! ### From the text of the log -/

theorem strLt_trans : ∀ s t u : Str, strLt s t = true → strLt t u = true → strLt s u = true := by
  intro s
  induction s with
  | nil =>
    intro t u h1 h2
    cases t with
    | nil => simp [strLt] at h1
    | cons b t => cases u with
      | nil => simp [strLt] at h2
      | cons c u => rfl
  | cons a s ih =>
    intro t u h1 h2
    cases t with
    | nil => simp [strLt] at h1
    | cons b t => cases u with
      | nil => simp [strLt] at h2
      | cons c u =>
        unfold strLt at h1 h2 ⊢
        by_cases h : a < c
        · rw [if_pos h]
        · rw [if_neg h]
          by_cases hab : a < b
          · rw [if_neg (by omega), if_pos (by omega)] at h2; simp at h2
          · rw [if_neg hab] at h1
            by_cases hba : b < a
            · rw [if_pos hba] at h1; simp at h1
            · rw [if_neg hba] at h1
              by_cases hcb : c < b
              · rw [if_neg (by omega), if_pos hcb] at h2; simp at h2
              · rw [if_neg (by omega), if_neg hcb] at h2
                rw [if_neg (by omega)]
                exact ih t u h1 h2

theorem strLt_eq : ∀ s t : Str, strLt s t = false → strLt t s = false → s = t := by
  intro s
  induction s with
  | nil =>
    intro t h1 _
    cases t with
    | nil => rfl
    | cons b t => simp [strLt] at h1
  | cons a s ih =>
    intro t h1 h2
    cases t with
    | nil => simp [strLt] at h2
    | cons b t =>
      unfold strLt at h1 h2
      by_cases hab : a < b
      · rw [if_pos hab] at h1; simp at h1
      · rw [if_neg hab] at h1
        by_cases hba : b < a
        · rw [if_pos hba] at h2; simp at h2
        · rw [if_neg hba] at h1 h2
          rw [if_neg hab] at h2
          rw [ih t h1 h2, show a = b by omega]

theorem set_mem {α : Type} {k : Str} {v : α} {m : List (Str × α)} {x : Str × α} (h : x ∈ set k v m) : x = (k, v) ∨ x ∈ m := by
  induction m with
  | nil => exact .inl (by simpa [Umpire.Events.set] using h)
  | cons y m ih =>
    unfold Umpire.Events.set at h
    split at h
    · simpa using h
    · split at h
      · rcases List.mem_cons.1 h with h | h
        · exact .inr (by simp [h])
        · rcases ih h with h | h
          · exact .inl h
          · exact .inr (by simp [h])
      · rcases List.mem_cons.1 h with h | h
        · exact .inl h
        · exact .inr (by simp [h])

theorem set_sorted {α : Type} {k : Str} {v : α} {m : List (Str × α)} (h : Sorted m) : Sorted (set k v m) := by
  induction m with
  | nil => simp [Umpire.Events.set, Sorted]
  | cons y m ih =>
    obtain ⟨k', v'⟩ := y
    obtain ⟨h1, h2⟩ := List.pairwise_cons.1 h
    unfold Umpire.Events.set
    split
    · rename_i hk
      refine List.pairwise_cons.2 ⟨?_, h⟩
      intro x hx
      rcases List.mem_cons.1 hx with rfl | hx
      · exact hk
      · exact strLt_trans _ _ _ hk (h1 x hx)
    · rename_i hk
      split
      · rename_i hk'
        refine List.pairwise_cons.2 ⟨?_, ih h2⟩
        intro x hx
        rcases set_mem hx with rfl | hx
        · exact hk'
        · exact h1 x hx
      · rename_i hk'
        have : k = k' := strLt_eq _ _ (by simpa using hk) (by simpa using hk')
        subst this
        exact List.pairwise_cons.2 ⟨h1, h2⟩

/-- Numbers that fit. -/
def Arg.Ok : Arg → Prop
  | .str _ => True
  | .num n => n < 2 ^ 64

theorem putArgs_wf (l : List Arg) (hl : ∀ a ∈ l, a.Ok) : ∀ (i : Nat) (e : Event), Sorted e.strs → Sorted e.nums → (∀ x ∈ e.nums, x.2 < 2 ^ 64) →
    Sorted (putArgs i l e).strs ∧ Sorted (putArgs i l e).nums ∧ ∀ x ∈ (putArgs i l e).nums, x.2 < 2 ^ 64 := by
  induction l with
  | nil => intro i e h1 h2 h3; exact ⟨h1, h2, h3⟩
  | cons a l ih =>
    intro i e h1 h2 h3
    have ih := ih fun b hb => hl b (by simp [hb])
    cases a with
    | str s => exact ih _ _ (set_sorted h1) h2 h3
    | num n =>
      refine ih _ _ h1 (set_sorted h2) ?_
      intro x hx
      rcases set_mem hx with rfl | hx
      · exact hl (.num n) (by simp)
      · exact h3 x hx

theorem wrap_lt (d : Int) : wrap d < 2 ^ 64 := by unfold wrap; omega

theorem args_ok {s : Strat} (h : s.Wf) : ∀ a ∈ s.args, a.Ok := by
  intro a ha
  cases s with
  | advisor x acc dev =>
    cases acc <;> cases dev <;> simp [Strat.args] at ha
    · subst ha; trivial
    · rcases ha with rfl | rfl
      · trivial
      · exact wrap_lt _
    · rcases ha with rfl | rfl <;> trivial
    · rcases ha with rfl | rfl | rfl
      · trivial
      · trivial
      · exact wrap_lt _
  | prefetcher dev =>
    cases dev <;> simp [Strat.args] at ha
    subst ha; exact wrap_lt _
  | numa n => simp [Strat.args] at ha; subst ha; exact wrap_lt _
  | named => simp [Strat.args] at ha
  | threadSafe => simp [Strat.args] at ha
  | shim => simp [Strat.args] at ha
  | aligned al =>
    cases al <;> simp [Strat.args] at ha
    subst ha; exact h _ rfl
  | pool k l hh =>
    obtain ⟨_, h1, _⟩ := h
    simp only [Strat.args, List.mem_append, List.mem_map] at ha
    rcases ha with ⟨n, hn, rfl⟩ | ⟨_, _, rfl⟩
    · exact h1 n hn
    · trivial
  | monotonic n => simp [Strat.args] at ha; subst ha; exact h
  | slots n => simp [Strat.args] at ha; subst ha; exact h
  | limiter n => simp [Strat.args] at ha; subst ha; exact h
  | fixed b p =>
    cases p <;> simp [Strat.args] at ha
    · subst ha; exact h.1
    · rcases ha with rfl | rfl
      · exact h.1
      · exact h.2 _ rfl
  | mixed l hh =>
    obtain ⟨_, h1, _⟩ := h
    simp only [Strat.args, List.mem_append, List.mem_map] at ha
    rcases ha with ⟨n, hn, rfl⟩ | ⟨_, _, rfl⟩
    · exact h1 n hn
    · trivial

theorem makeEvent_wf {ref : Nat} {m : Made} {t : Int} (h : m.strat.Wf) (h1 : -2 ^ 63 ≤ t) (h2 : t < 2 ^ 63) :
    Rec.Wf (.event (makeEvent ref m t)) := by
  have hs0 : ∀ {α : Type} (k : Str) (v : α), Sorted [(k, v)] := fun k v => by simp [Sorted]
  have hw := putArgs_wf (.str m.base :: m.strat.args)
    (fun a ha => by
      rcases List.mem_cons.1 ha with rfl | ha
      · trivial
      · exact args_ok h a ha) 0
    { name := b!"make_allocator", cat := .operation,
      strs := set b!"type" (mangled m.strat.cls) (set b!"allocator_ref" (osPtr ref) []),
      nums := [(b!"introspection", if m.tracked then 1 else 0)],
      tags := set b!"replay" b!"true" (set b!"allocator_name" m.name []), time := t }
    (set_sorted (hs0 _ _)) (hs0 _ _) (by cases m.tracked <;> simp)
  have hn := putArgs_name (.str m.base :: m.strat.args) 0
    { name := b!"make_allocator", cat := .operation,
      strs := set b!"type" (mangled m.strat.cls) (set b!"allocator_ref" (osPtr ref) []),
      nums := [(b!"introspection", if m.tracked then 1 else 0)],
      tags := set b!"replay" b!"true" (set b!"allocator_name" m.name []), time := t }
  refine ⟨hw.1, hw.2.1, ?_, hw.2.2, ?_, ?_⟩
  · show Sorted (makeEvent ref m t).tags
    unfold makeEvent
    rw [hn.2.2.1]
    exact set_sorted (hs0 _ _)
  · show -2 ^ 63 ≤ (makeEvent ref m t).time
    unfold makeEvent
    rw [hn.2.2.2]
    exact h1
  · show (makeEvent ref m t).time < 2 ^ 63
    unfold makeEvent
    rw [hn.2.2.2]
    exact h2

theorem resourceEvent_wf {ref : Nat} {n : Str} {tr : Bool} {t : Int} (h1 : -2 ^ 63 ≤ t) (h2 : t < 2 ^ 63) :
    Rec.Wf (.event (resourceEvent ref n tr t)) := by
  have hs0 : ∀ {α : Type} (k : Str) (v : α), Sorted [(k, v)] := fun k v => by simp [Sorted]
  exact ⟨hs0 _ _, hs0 _ _, set_sorted (hs0 _ _), by cases tr <;> simp [resourceEvent], h1, h2⟩

theorem act_wf {avail : List Str} {o : Opts} {r : Reg} {a : Act} (ha : a.Ok o) : ∀ e ∈ (act avail r a).2, Rec.Wf (.event e) := by
  intro e he
  cases a with
  | get n ref t =>
    unfold act at he
    simp only at he
    split at he
    · split at he
      · simp at he
      · simp only [List.mem_singleton] at he
        subst he
        exact resourceEvent_wf ha.2.1 ha.2.2
    · simp at he
  | make m ref t =>
    unfold act at he
    simp only at he
    split at he
    · split at he
      · simp only [List.mem_singleton] at he
        subst he
        exact makeEvent_wf ha.1 ha.2.2.1 ha.2.2.2
      · simp at he
    · simp at he

theorem acts_wf {avail : List Str} {o : Opts} (l : List Act) : ∀ (r : Reg), (∀ a ∈ l, a.Ok o) → ∀ e ∈ (acts avail r l).2, Rec.Wf (.event e) := by
  induction l with
  | nil => intro r _ e he; simp [acts] at he
  | cons a l ih =>
    intro r h e he
    simp only [acts, List.mem_append] at he
    rcases he with he | he
    · exact act_wf (h a (by simp)) e he
    · exact ih _ (fun b hb => h b (by simp [hb])) e he

theorem redo_reads {avail : List Str} {o : Opts} {major : Nat} {rs : List Rec} {es : List Event} (h : Reads rs es) : ∀ r : Reg,
    redoAll avail o major r es = redoAll avail o major r (creations rs) := by
  have skip : ∀ (r : Reg) (e : Event), ¬ (e.cat = .operation ∧ (e.name = b!"make_memory_resource" ∨ e.name = b!"make_allocator")) →
      redo avail o major r e = some r := by
    intro r e he
    unfold redo
    rw [if_neg fun h => he ⟨h.1, .inl h.2⟩, if_neg fun h => he ⟨h.1, .inr h.2⟩]
  induction h with
  | nil => intro r; rfl
  | @cons x e rs es hm _ ih =>
    intro r
    have hskip : redo avail o major r e = some r → creations (x :: rs) = creations rs →
        redoAll avail o major r (e :: es) = redoAll avail o major r (creations (x :: rs)) := by
      intro h1 h2
      rw [h2, ← ih]
      simp only [redoAll, h1, Option.bind_some]
    cases x with
    | event e' =>
      have : e = e' := hm
      subst this
      by_cases hc : e.cat = .operation ∧ (e.name = b!"make_memory_resource" ∨ e.name = b!"make_allocator")
      · have hcr : creations (.event e :: rs) = e :: creations rs := by
          unfold creations
          rw [List.filterMap_cons]
          simp only [if_pos hc]
        rw [hcr]
        simp only [redoAll]
        cases redo avail o major r e with
        | none => rfl
        | some r' => exact ih r'
      · refine hskip (skip r e hc) ?_
        unfold creations
        rw [List.filterMap_cons]
        simp only [if_neg hc]
    | allocate size ref ptr time =>
      obtain ⟨a, p, _, _, rfl⟩ := hm
      exact hskip (skip r _ (by simp)) rfl
    | namedAllocate size ref ptr name time =>
      obtain ⟨a, p, _, _, rfl⟩ := hm
      exact hskip (skip r _ (by simp)) rfl
    | deallocate ref ptr time =>
      obtain ⟨a, p, _, _, rfl⟩ := hm
      exact hskip (skip r _ (by simp)) rfl

/-- From the text of a log that has, among other records, the creations of a program, the tool
builds the registry of the program. -/
theorem replay_registry_text_partial {avail : List Str} {o : Opts} {major : Nat} (h2 : 2 ≤ major) {l : List Act} (hl : ∀ a ∈ l, a.Ok o)
    {st : Umpire.Events.Store} {rs : List Rec} (hlog : Logged st rs) (hc : creations rs = (acts avail [] l).2)
    (hw : ∀ r ∈ rs, (r.Wf ∧ r.PlainName) ∨ ∃ e ∈ (acts avail [] l).2, r = .event e) :
    ∃ es, getEvents st.text = some es ∧ redoAll avail o major [] es = some ((acts avail [] l).1.chosen o) := by
  obtain ⟨es, he, hr⟩ := Umpire.Events.event_log_round_trip_partial hlog
    (fun r hr => by
      rcases hw r hr with h | ⟨e, he, rfl⟩
      · exact h.1
      · exact acts_wf l [] hl e he)
    (fun r hr => by
      rcases hw r hr with h | ⟨e, he, rfl⟩
      · exact h.2
      · trivial)
  refine ⟨es, he, ?_⟩
  rw [redo_reads hr, hc]
  exact replay_registry_partial h2 l [] hl

/-! ### What is lost -/

/-- Whether a memory resource is tracked is recorded, but not looked at; a resource that is not made on
demand ends the replay. -/
theorem replay_resource_counterexample :
    (∀ avail o major r ref n t, redo avail o major r (resourceEvent ref n false t) = redo avail o major r (resourceEvent ref n true t)) ∧
    redo [b!"HOST", b!"SHARED"] {} 2025 [] (resourceEvent 4096 b!"SHARED::node" true 1) = none := ⟨fun _ _ _ _ _ _ _ => rfl, rfl⟩

/-! ### The hypotheses can be met -/

/-- A pool on the host, and a limiter on the pool. -/
def sample : List Act :=
  [.get b!"HOST" 4096 1, .make ⟨b!"pool", true, b!"HOST", .pool .quick [1048576, 65536, 64] none⟩ 8192 2,
    .make ⟨b!"lim", false, b!"pool", .limiter 4096⟩ 12288 3]

example : ∀ a ∈ sample, a.Ok {} := by
  intro a ha
  simp only [sample, List.mem_cons, List.not_mem_nil, or_false] at ha
  rcases ha with rfl | rfl | rfl
  · exact ⟨⟨by decide, by decide⟩, by decide, by decide⟩
  · exact ⟨by simp [Strat.Wf], ⟨⟨by decide, by decide⟩, ⟨by decide, by decide⟩, by simp⟩, by decide, by decide⟩
  · exact ⟨by simp [Strat.Wf], ⟨⟨by decide, by decide⟩, ⟨by decide, by decide⟩, by simp⟩, by decide, by decide⟩

example : (acts [b!"HOST"] [] sample).1 =
    [(b!"lim", .alloc false b!"pool" (.limiter 4096)), (b!"pool", .alloc true b!"HOST" (.pool .quick 1048576 65536 64 (.percentHwm 100))),
      (b!"HOST", .resource)] := by decide +kernel

/-- The log of the program, with an allocation in between, can be written. -/
example : ∃ st rs, Logged st rs ∧ creations rs = (acts [b!"HOST"] [] sample).2 ∧ rs.length = 4 := by
  obtain ⟨s1, h1⟩ : ∃ s, Umpire.Events.insert true Umpire.Events.Store.new (.event (resourceEvent 4096 b!"HOST" true 1)) = .ok s := ⟨_, rfl⟩
  have g1 := Logged.ok true Logged.new h1
  obtain ⟨s2, h2⟩ := (Umpire.Events.event_insert_defined g1 (by simp) true (.allocate 64 4096 65536 3)).2 (by simp)
  have g2 := Logged.ok true g1 h2
  obtain ⟨s3, h3⟩ : ∃ s, Umpire.Events.insert true s2
      (.event (makeEvent 8192 ⟨b!"pool", true, b!"HOST", .pool .quick [1048576, 65536, 64] none⟩ 2)) = .ok s := by
    obtain ⟨t, ht⟩ := Option.isSome_iff_exists.1 (show (Umpire.Events.dumpEvent
      (makeEvent 8192 ⟨b!"pool", true, b!"HOST", .pool .quick [1048576, 65536, 64] none⟩ 2)).isSome = true by decide +kernel)
    unfold Umpire.Events.insert
    simp only [Bool.or_true, if_true, ht]
    exact ⟨_, rfl⟩
  have g3 := Logged.ok true g2 h3
  obtain ⟨s4, h4⟩ : ∃ s, Umpire.Events.insert true s3 (.event (makeEvent 12288 ⟨b!"lim", false, b!"pool", .limiter 4096⟩ 3)) = .ok s := by
    obtain ⟨t, ht⟩ := Option.isSome_iff_exists.1 (show (Umpire.Events.dumpEvent
      (makeEvent 12288 ⟨b!"lim", false, b!"pool", .limiter 4096⟩ 3)).isSome = true by decide +kernel)
    unfold Umpire.Events.insert
    simp only [Bool.or_true, if_true, ht]
    exact ⟨_, rfl⟩
  exact ⟨_, _, Logged.ok true g3 h4, by decide +kernel, rfl⟩

end Umpire.Rebuild
