import Verif.Async.Model
/-!
# What operations on streams do (C73)

The specification reads the history of calls only.  `ideal` is the memory if every
operation took effect when it was called.  `pending` is what may still be under way on
a stream: everything since the program waited for it.  A program is tidy if it keeps
away from what is under way elsewhere.
-/
set_option autoImplicit false
set_option linter.unusedSimpArgs false
namespace Umpire.Async

/-! ## The specification -/

/-- Size and allocator of the allocation at `p`, from the history. -/
def alive : History → Nat → Option (Nat × Al)
  | [], _ => none
  | (.allocate a n, some q) :: h, p => if p = q then some (n, a) else alive h p
  | (.deallocate _, some q) :: h, p => if p = q then none else alive h p
  | (.reallocate o n _, some q) :: h, p =>
    if p = q then (alive h o).map fun k => (n, k.2) else if p = o then none else alive h p
  | _ :: h, p => alive h p

/-- The memory if every call took effect at once. -/
def ideal (m : Mem) : History → Mem
  | [], x => m x
  | (.write p n v, some _) :: h, x => if p ≤ x ∧ x < p + n then v else ideal m h x
  | (.memset p n v _, some _) :: h, x => if p ≤ x ∧ x < p + n then v else ideal m h x
  | (.copy d s n _, some _) :: h, x => if d ≤ x ∧ x < d + n then ideal m h (s + (x - d)) else ideal m h x
  | (.reallocate p n _, some q) :: h, x =>
    match alive h p with
    | some (k, _) => if q ≤ x ∧ x < q + min k n then ideal m h (p + (x - q)) else ideal m h x
    | none => ideal m h x
  | _ :: h, x => ideal m h x

/-- The bytes an operation reads and writes. -/
structure Foot where
  read : Rng
  write : Rng
deriving DecidableEq, Repr

/-- Their order matters. -/
def Clash (a b : Foot) : Prop :=
  ∃ x, (inside a.write x ∧ (inside b.write x ∨ inside b.read x)) ∨ (inside a.read x ∧ inside b.write x)

/-- Memory of a device pool: given back without waiting. -/
def devicePool (a : Al) : Bool := a.device && a.pool

/-- Memory of a pool of host memory. -/
def hostPool (a : Al) : Bool := !a.device && a.pool

/-- What a reallocation of `p` to `q` reads and writes; if `old` is not set, without the
memory that it gave back. -/
def moveFoot (old : Bool) (h : History) (p n q : Nat) : Foot :=
  match alive h p with
  | some (k, a) => ⟨if old && devicePool a then (p, min k n) else (0, 0), (q, min k n)⟩
  | none => ⟨(0, 0), (0, 0)⟩

/-- What may be under way on stream `s`: everything since the last wait. -/
def pending (old : Bool) : History → Nat → List Foot
  | [], _ => []
  | (.wait t, some _) :: h, s => if s = t then [] else pending old h s
  | (.copy d p n (.stream t), some _) :: h, s =>
    if s = t then ⟨(p, n), (d, n)⟩ :: pending old h s else pending old h s
  | (.memset p n _ (.stream t), some _) :: h, s =>
    if s = t then ⟨(0, 0), (p, n)⟩ :: pending old h s else pending old h s
  | (.reallocate p n (.stream t), some q) :: h, s =>
    if s = t then moveFoot old h p n q :: pending old h s else pending old h s
  | _ :: h, s => pending old h s

/-- `f` is apart from what is under way, on all streams but that of `c`, and if `all`
then on that one too. -/
def Apart (old : Bool) (h : History) (c : Ctx) (all : Bool) (f : Foot) : Prop :=
  ∀ s, (c = .stream s → all = true) → ∀ g ∈ pending old h s, ¬ Clash f g

/-- The program keeps away from what is under way on other streams; what it does without
a stream, from what is under way at all.  If `strict` is set it has also to keep away
from memory it reallocated, until the stream was waited for, and to treat the
reallocation of memory of a host pool as done without a stream. -/
def Tidy (strict : Bool) : History → Prop
  | [] => True
  | (.write p n _, some _) :: h => Tidy strict h ∧ Apart strict h .host true ⟨(0, 0), (p, n)⟩
  | (.copy d s n c, some _) :: h => Tidy strict h ∧ Apart strict h c false ⟨(s, n), (d, n)⟩
  | (.memset p n _ c, some _) :: h => Tidy strict h ∧ Apart strict h c false ⟨(0, 0), (p, n)⟩
  | (.reallocate p n c, some q) :: h => Tidy strict h ∧ ∃ k a, alive h p = some (k, a) ∧
      Apart strict h c (strict && hostPool a) ⟨(p, min k n), (q, min k n)⟩
  | _ :: h => Tidy strict h

/-! ## Operations on memory -/

/-- The foot of an operation. -/
def Op.foot : Op → Foot
  | .copy s d n => ⟨(s, n), (d, n)⟩
  | .set p n _ => ⟨(0, 0), (p, n)⟩

theorem run_kept {o : Op} {m : Mem} {x : Nat} (h : ¬ inside o.foot.write x) : o.run m x = m x := by
  cases o <;> simp only [Op.run, Op.foot] at * <;> rw [if_neg h]

theorem run_same {o : Op} {m m' : Mem} {x : Nat} (hr : ∀ y, inside o.foot.read y → m y = m' y)
    (h : inside o.foot.write x) : o.run m x = o.run m' x := by
  cases o with
  | copy s d n =>
    simp only [Op.run, Op.foot] at *
    rw [if_pos h, if_pos h]
    refine hr _ ?_
    obtain ⟨h1, h2⟩ := h
    simp only [inside] at *
    exact ⟨by omega, by omega⟩
  | set p n v =>
    simp only [Op.run, Op.foot] at *
    rw [if_pos h, if_pos h]

theorem runs_kept {l : List Op} {m : Mem} {x : Nat} (h : ∀ o ∈ l, ¬ inside o.foot.write x) : runs l m x = m x := by
  induction l generalizing m with
  | nil => rfl
  | cons o l ih =>
    simp only [runs]
    rw [ih fun o' h' => h o' (.tail _ h'), run_kept (h o (.head _))]

theorem runs_same {W : Nat → Prop} {l : List Op} {m m' : Mem} (hm : ∀ y, ¬ W y → m y = m' y)
    (hr : ∀ o ∈ l, ∀ y, inside o.foot.read y → ¬ W y) {x : Nat} (hx : ¬ W x) : runs l m x = runs l m' x := by
  induction l generalizing m m' with
  | nil => exact hm x hx
  | cons o l ih =>
    simp only [runs]
    refine ih (fun y hy => ?_) fun o' h' => hr o' (.tail _ h')
    by_cases hw : inside o.foot.write y
    · exact run_same (fun z hz => hm z (hr o (.head _) z hz)) hw
    · rw [run_kept hw, run_kept hw]; exact hm y hy

theorem runs_append {l : List Op} {o : Op} {m : Mem} : runs (l ++ [o]) m = o.run (runs l m) := by
  induction l generalizing m with
  | nil => rfl
  | cons o' l ih => simp only [List.cons_append, runs, ih]

theorem clash_comm {a b : Foot} (h : Clash a b) : Clash b a := by
  obtain ⟨x, (⟨h1, h2 | h2⟩ | ⟨h1, h2⟩)⟩ := h
  · exact ⟨x, Or.inl ⟨h2, Or.inl h1⟩⟩
  · exact ⟨x, Or.inr ⟨h2, h1⟩⟩
  · exact ⟨x, Or.inl ⟨h2, Or.inr h1⟩⟩

/-! ## The invariant -/

/-- The queues and the memory, compared with memory `i` that has all effects. -/
structure Good (i : Mem) (S : St) : Prop where
  apart : ∀ s t, s ≠ t → ∀ o ∈ S.queue s, ∀ o' ∈ S.queue t, ¬ Clash o.foot o'.foot
  mem : ∀ s x, (∀ t, t ≠ s → ∀ o ∈ S.queue t, ¬ inside o.foot.write x) → runs (S.queue s) S.mem x = i x

theorem Good.exec {i : Mem} {S T : St} (g : Good i S) (e : Exec S T) : Good i T := by
  cases e with
  | @op t o l hq =>
    have sub : ∀ s o', o' ∈ (if s = t then l else S.queue s) → o' ∈ S.queue s := by
      intro s o' h
      by_cases hs : s = t
      · rw [if_pos hs] at h; rw [hs, hq]; exact .tail _ h
      · rwa [if_neg hs] at h
    have ho : o ∈ S.queue t := by rw [hq]; exact .head _
    refine ⟨fun s u hsu a ha b hb => g.apart s u hsu a (sub s a ha) b (sub u b hb), fun s x hx => ?_⟩
    simp only at hx ⊢
    by_cases hs : s = t
    · rw [if_pos hs]
      have h1 := g.mem t x fun u hu a ha => by
        have := hx u (by omega) a
        rw [if_neg hu] at this
        exact this ha
      rwa [hq] at h1
    · rw [if_neg hs]
      by_cases hw : inside o.foot.write x
      · rw [runs_kept fun a ha hax => g.apart s t hs a ha o ho ⟨x, Or.inl ⟨hax, Or.inl hw⟩⟩]
        have h1 := g.mem t x fun u hu a ha hax => by
          by_cases hus : u = s
          · subst hus; exact g.apart u t hs a ha o ho ⟨x, Or.inl ⟨hax, Or.inl hw⟩⟩
          · have := hx u hus a
            rw [if_neg hu] at this
            exact this ha hax
        rw [hq] at h1
        simp only [runs] at h1
        rw [runs_kept fun a ha hax => by
          have := hx t (fun h => hs h.symm) a
          rw [if_pos rfl] at this
          exact this ha hax] at h1
        exact h1
      · rw [runs_same (W := fun y => inside o.foot.write y) (m' := S.mem) (fun y hy => run_kept hy)
          (fun a ha y hy hy' => g.apart s t hs a ha o ho ⟨y, Or.inr ⟨hy, hy'⟩⟩) hw]
        refine g.mem s x fun u hu a ha hax => ?_
        by_cases hut : u = t
        · subst hut
          rw [hq] at ha
          rcases List.mem_cons.1 ha with rfl | ha
          · exact hw hax
          · have := hx u hu a
            rw [if_pos rfl] at this
            exact this ha hax
        · have := hx u hu a
          rw [if_neg hut] at this
          exact this ha hax

theorem Good.enqueue {i : Mem} {S : St} {t : Nat} {o : Op} (g : Good i S)
    (h : ∀ s, s ≠ t → ∀ a ∈ S.queue s, ¬ Clash o.foot a.foot) : Good (o.run i) (S.enqueue t o) := by
  constructor
  · intro s u hsu a ha b hb
    simp only [St.enqueue] at ha hb
    by_cases hs : s = t
    · rw [if_pos hs] at ha
      have hu : u ≠ t := by omega
      rw [if_neg hu] at hb
      rcases List.mem_append.1 ha with ha | ha
      · exact g.apart s u hsu a ha b hb
      · rw [List.mem_singleton.1 ha]; exact h u hu b hb
    · rw [if_neg hs] at ha
      by_cases hu : u = t
      · rw [if_pos hu] at hb
        rcases List.mem_append.1 hb with hb | hb
        · exact g.apart s u hsu a ha b hb
        · rw [List.mem_singleton.1 hb]; exact fun hc => h s hs a ha (clash_comm hc)
      · rw [if_neg hu] at hb
        exact g.apart s u hsu a ha b hb
  · intro s x hx
    simp only [St.enqueue] at hx ⊢
    by_cases hs : s = t
    · subst hs
      rw [if_pos rfl, runs_append]
      have hx' : ∀ u, u ≠ s → ∀ a ∈ S.queue u, ¬ inside a.foot.write x := fun u hu a ha => by
        have := hx u hu a
        rw [if_neg hu] at this
        exact this ha
      by_cases hw : inside o.foot.write x
      · refine run_same (fun y hy => g.mem s y fun u hu a ha hay => ?_) hw
        exact h u hu a ha ⟨y, Or.inr ⟨hy, hay⟩⟩
      · rw [run_kept hw, run_kept hw]; exact g.mem s x hx'
    · rw [if_neg hs]
      have ho : ¬ inside o.foot.write x := by
        have := hx t (fun h => hs h.symm) o
        rw [if_pos rfl] at this
        exact this (List.mem_append.2 (.inr (.head _)))
      rw [run_kept ho]
      refine g.mem s x fun u hu a ha => ?_
      have := hx u hu a
      by_cases hut : u = t
      · rw [if_pos hut] at this; exact this (List.mem_append.2 (.inl ha))
      · rw [if_neg hut] at this; exact this ha

theorem Good.now {i : Mem} {S : St} {o : Op} (g : Good i S)
    (h : ∀ s, ∀ a ∈ S.queue s, ¬ Clash o.foot a.foot) : Good (o.run i) { S with mem := o.run S.mem } := by
  refine ⟨g.apart, fun s x hx => ?_⟩
  simp only at hx ⊢
  by_cases hw : inside o.foot.write x
  · rw [runs_kept fun a ha hax => h s a ha ⟨x, Or.inl ⟨hw, Or.inl hax⟩⟩]
    refine run_same (fun y hy => ?_) hw
    have h1 := g.mem s y fun u _ a ha hay => h u a ha ⟨y, Or.inr ⟨hy, hay⟩⟩
    rwa [runs_kept fun a ha hay => h s a ha ⟨y, Or.inr ⟨hy, hay⟩⟩] at h1
  · rw [runs_same (W := fun y => inside o.foot.write y) (m' := S.mem) (fun y hy => run_kept hy)
      (fun a ha y hy hy' => h s a ha ⟨y, Or.inl ⟨hy', Or.inr hy⟩⟩) hw, run_kept hw]
    exact g.mem s x hx

/-- A foot is covered by feet of the list. -/
def Covered (f : Foot) (l : List Foot) : Prop :=
  (∀ x, inside f.read x → ∃ g ∈ l, inside g.read x) ∧ (∀ x, inside f.write x → ∃ g ∈ l, inside g.write x)

theorem covered_clash {a f : Foot} {l : List Foot} (hc : Covered f l) (h : ∀ g ∈ l, ¬ Clash a g) : ¬ Clash a f := by
  rintro ⟨x, (⟨h1, h2 | h2⟩ | ⟨h1, h2⟩)⟩
  · obtain ⟨g, hg, hx⟩ := hc.2 x h2
    exact h g hg ⟨x, Or.inl ⟨h1, Or.inl hx⟩⟩
  · obtain ⟨g, hg, hx⟩ := hc.1 x h2
    exact h g hg ⟨x, Or.inl ⟨h1, Or.inr hx⟩⟩
  · obtain ⟨g, hg, hx⟩ := hc.2 x h2
    exact h g hg ⟨x, Or.inr ⟨h1, hx⟩⟩

theorem covered_mem {f : Foot} {l : List Foot} (h : f ∈ l) : Covered f l :=
  ⟨fun _ hx => ⟨f, h, hx⟩, fun _ hx => ⟨f, h, hx⟩⟩

theorem covered_more {f g : Foot} {l : List Foot} (h : Covered f l) : Covered f (g :: l) :=
  ⟨fun x hx => by obtain ⟨a, ha, h⟩ := h.1 x hx; exact ⟨a, .tail _ ha, h⟩,
   fun x hx => by obtain ⟨a, ha, h⟩ := h.2 x hx; exact ⟨a, .tail _ ha, h⟩⟩

/-- The records. -/
structure Recs (h : History) (l : List Rec) : Prop where
  known : ∀ p n a, alive h p = some (n, a) → ⟨p, n, a⟩ ∈ l
  pos : ∀ r ∈ l, 0 < r.size
  one : ∀ r ∈ l, ∀ r' ∈ l, r.ptr = r'.ptr → r = r'

structure Inv (m : Mem) (h : History) (S : St) : Prop where
  recs : Recs h S.recs
  good : Tidy true h → Good (ideal m h) S
  cover : Tidy true h → ∀ s, ∀ o ∈ S.queue s, Covered o.foot (pending true h s)

theorem exec_recs {S T : St} (e : Execs S T) : T.recs = S.recs := by
  induction e with
  | refl => rfl
  | step _ h ih => cases h with | op _ => exact ih

theorem exec_sub {S T : St} (e : Execs S T) : ∀ s, ∀ o ∈ T.queue s, o ∈ S.queue s := by
  induction e with
  | refl => exact fun _ _ h => h
  | @step U V _ h ih =>
    cases h with
    | @op t o l hq =>
      intro s o' ho
      simp only at ho
      by_cases hs : s = t
      · rw [if_pos hs] at ho
        exact ih s o' (by rw [hs, hq]; exact .tail _ ho)
      · rw [if_neg hs] at ho
        exact ih s o' ho

theorem Good.execs {i : Mem} {S T : St} (g : Good i S) (e : Execs S T) : Good i T := by
  induction e with
  | refl => exact g
  | step _ h ih => exact ih.exec h

theorem Recs.fresh {h : History} {l : List Rec} {p n : Nat} (k : Recs h l) (hn : 0 < n) (hf : Fresh p n l) :
    ∀ r ∈ l, r.ptr ≠ p := by
  intro r hr he
  have h1 := k.pos r hr
  have h2 := hf r hr
  omega

theorem Recs.cons {h h' : History} {l : List Rec} {r : Rec} (k : Recs h l) (hn : 0 < r.size)
    (hf : ∀ r' ∈ l, r'.ptr ≠ r.ptr)
    (ha : ∀ p n a, alive h' p = some (n, a) → alive h p = some (n, a) ∨ r = ⟨p, n, a⟩) : Recs h' (r :: l) := by
  constructor
  · intro p n a h1
    rcases ha p n a h1 with h2 | h2
    · exact .tail _ (k.known p n a h2)
    · rw [h2]; exact .head _
  · intro r' hr
    rcases List.mem_cons.1 hr with rfl | hr
    · exact hn
    · exact k.pos _ hr
  · intro a ha b hb hab
    rcases List.mem_cons.1 ha with ea | ha'
    · rcases List.mem_cons.1 hb with eb | hb'
      · rw [ea, eb]
      · exact absurd (by rw [← hab, ea]) (hf b hb')
    · rcases List.mem_cons.1 hb with eb | hb'
      · exact absurd (by rw [hab, eb]) (hf a ha')
      · exact k.one a ha' b hb' hab

theorem Recs.drop {h h' : History} {l : List Rec} {q : Nat} (k : Recs h l)
    (ha : ∀ p n a, alive h' p = some (n, a) → p ≠ q ∧ alive h p = some (n, a)) : Recs h' (without q l) := by
  constructor
  · intro p n a h1
    obtain ⟨h2, h3⟩ := ha p n a h1
    exact List.mem_filter.2 ⟨k.known p n a h3, by simpa using h2⟩
  · exact fun r hr => k.pos r (List.mem_filter.1 hr).1
  · exact fun a ha b hb hab => k.one a (List.mem_filter.1 ha).1 b (List.mem_filter.1 hb).1 hab

theorem Recs.same {h h' : History} {l : List Rec} (k : Recs h l)
    (ha : ∀ p, alive h' p = alive h p) : Recs h' l :=
  ⟨fun p n a h1 => k.known p n a (by rw [← ha p]; exact h1), k.pos, k.one⟩

theorem tidy_tail {b : Bool} {c : Call} {r : Option Nat} {h : History} (ht : Tidy b ((c, r) :: h)) : Tidy b h := by
  cases c <;> cases r <;> first | exact ht | exact ht.1

theorem Good.recs {i : Mem} {S : St} (g : Good i S) (l : List Rec) : Good i { S with recs := l } := ⟨g.apart, g.mem⟩

theorem apart_cover {h : History} {c : Ctx} {b : Bool} {f : Foot} {s : Nat} {o : Op} {l : List Op}
    (ha : Apart true h c b f) (hs : c = .stream s → b = true) (ho : o ∈ l)
    (hc : ∀ o ∈ l, Covered o.foot (pending true h s)) : ¬ Clash f o.foot :=
  covered_clash (hc o ho) (ha s hs)

theorem start_good {i : Mem} {h : History} {S T : St} {o : Op} {b : Bool} {c : Ctx} (g : Good i S)
    (hc : ∀ s, ∀ o ∈ S.queue s, Covered o.foot (pending true h s)) (ha : Apart true h c false o.foot)
    (st : Start S o b c (some T)) : Good (o.run i) T := by
  cases st with
  | host => exact g.now fun s a hs => apart_cover (s := s) (o := a) ha (fun h => by cases h) hs (hc s)
  | @waited t U e he =>
    refine (g.execs e).now fun s a hs => ?_
    by_cases hst : s = t
    · rw [hst, he] at hs; exact nomatch hs
    · exact apart_cover ha (fun h => absurd (by injection h with h; exact h.symm) hst) (exec_sub e s a hs) (hc s)
  | device =>
    exact g.enqueue fun s hs a hm => apart_cover ha (fun h => absurd (by injection h with h; exact h.symm) hs) hm (hc s)

theorem start_recs {S T : St} {o : Op} {b : Bool} {c : Ctx} (st : Start S o b c (some T)) : T.recs = S.recs := by
  cases st with
  | host => rfl
  | waited e _ => have := exec_recs e; exact this
  | device => rfl

theorem start_queue {S T : St} {o : Op} {b : Bool} {c : Ctx} (st : Start S o b c (some T)) :
    ∀ s, ∀ a ∈ T.queue s, a ∈ S.queue s ∨ (c = .stream s ∧ a = o) := by
  cases st with
  | host => exact fun s a h => .inl h
  | waited e _ => exact fun s a h => .inl (exec_sub e s a h)
  | @device t =>
    intro s a h
    simp only [St.enqueue] at h
    by_cases hs : s = t
    · rw [if_pos hs] at h
      rcases List.mem_append.1 h with h | h
      · exact .inl h
      · exact .inr ⟨by rw [hs], List.mem_singleton.1 h⟩
    · rw [if_neg hs] at h; exact .inl h

theorem release {S T : St} {r : Rec} (rl : Release S r T) : ∃ U, Execs S U ∧ T = { U with recs := without r.ptr U.recs } ∧
    (r.al.device = true → r.al.pool = false → ∀ s, T.queue s = []) := by
  cases rl with
  | now h => exact ⟨S, .refl _, rfl, fun h1 h2 => by rcases h with h | h <;> simp_all⟩
  | @sync U h1 h2 e he => exact ⟨U, e, rfl, fun _ _ => he⟩

theorem ideal_copy (m : Mem) (h : History) (d s n : Nat) (c : Ctx) (r : Nat) :
    ideal m ((.copy d s n c, some r) :: h) = (Op.copy s d n).run (ideal m h) := rfl

theorem ideal_memset (m : Mem) (h : History) (p n v : Nat) (c : Ctx) (r : Nat) :
    ideal m ((.memset p n v c, some r) :: h) = (Op.set p n v).run (ideal m h) := rfl

theorem ideal_write (m : Mem) (h : History) (p n v : Nat) (r : Nat) :
    ideal m ((.write p n v, some r) :: h) = (Op.set p n v).run (ideal m h) := rfl

theorem ideal_move (m : Mem) (h : History) (p n q k : Nat) (c : Ctx) (a : Al) (ha : alive h p = some (k, a)) :
    ideal m ((.reallocate p n c, some q) :: h) = (Op.copy p q (min k n)).run (ideal m h) := by
  funext x
  simp only [ideal, ha, Op.run, inside]
  rfl

/-- The records of an untouched state. -/
theorem Inv.quiet {m : Mem} {h : History} {S : St} {c : Call} {r : Option Nat} (v : Inv m h S)
    (h1 : ∀ p, alive ((c, r) :: h) p = alive h p) (h2 : Tidy true ((c, r) :: h) → Tidy true h)
    (h3 : ideal m ((c, r) :: h) = ideal m h) (h4 : ∀ s, pending true ((c, r) :: h) s = pending true h s) :
    Inv m ((c, r) :: h) S :=
  ⟨v.recs.same h1, fun ht => by rw [h3]; exact v.good (h2 ht), fun ht s o ho => by rw [h4]; exact v.cover (h2 ht) s o ho⟩

theorem Inv.failed {m : Mem} {h : History} {S : St} {c : Call} (v : Inv m h S) : Inv m ((c, none) :: h) S := by
  cases c with
  | copy _ _ _ c => cases c <;> exact v.quiet (fun _ => rfl) id rfl fun _ => rfl
  | memset _ _ _ c => cases c <;> exact v.quiet (fun _ => rfl) id rfl fun _ => rfl
  | reallocate _ _ c => cases c <;> exact v.quiet (fun _ => rfl) id rfl fun _ => rfl
  | _ => exact v.quiet (fun _ => rfl) id rfl fun _ => rfl

theorem Inv.exec {m : Mem} {h : History} {S T : St} (v : Inv m h S) (e : Exec S T) : Inv m h T := by
  have es : Execs S T := .step (.refl _) e
  exact ⟨by rw [exec_recs es]; exact v.recs, fun ht => (v.good ht).exec e,
    fun ht s o ho => v.cover ht s o (exec_sub es s o ho)⟩

/-- A reallocation: the records. -/
theorem Recs.moved {h : History} {l : List Rec} {r : Rec} {n q : Nat} {c : Ctx} (k : Recs h l) (hr : r ∈ l)
    (hn : 0 < n) (hf : ∀ r' ∈ without r.ptr l, r'.ptr ≠ q) :
    Recs ((.reallocate r.ptr n c, some q) :: h) (⟨q, n, r.al⟩ :: without r.ptr l) := by
  have k1 : Recs ((.deallocate r.ptr, some r.ptr) :: h) (without r.ptr l) := k.drop fun p n a h1 => by
    simp only [alive] at h1
    by_cases hp : p = r.ptr
    · rw [if_pos hp] at h1; exact nomatch h1
    · rw [if_neg hp] at h1; exact ⟨hp, h1⟩
  refine k1.cons hn hf fun p n' a h1 => ?_
  simp only [alive] at h1 ⊢
  by_cases hp : p = q
  · rw [if_pos hp] at h1
    right
    cases hk : alive h r.ptr with
    | none => rw [hk] at h1; exact nomatch h1
    | some z =>
      obtain ⟨k0, a0⟩ := z
      rw [hk] at h1
      obtain ⟨rp, rs, ra⟩ := r
      have := k.one _ (k.known _ _ _ hk) _ hr rfl
      simp only [Rec.mk.injEq] at this
      obtain ⟨-, rfl, rfl⟩ := this
      simp only [Option.map_some, Option.some.injEq, Prod.mk.injEq] at h1
      rw [hp, h1.1, h1.2]
  · rw [if_neg hp] at h1
    exact .inl h1

theorem without_cons {p q n : Nat} {a : Al} {l : List Rec} (h : q ≠ p) :
    without p (⟨q, n, a⟩ :: l) = ⟨q, n, a⟩ :: without p l := by
  simp [without, h]

theorem Inv.step {m : Mem} {h : History} {S T : St} {c : Call} {r : Option Nat} (v : Inv m h S)
    (st : Step S c r T) : Inv m ((c, r) :: h) T := by
  cases st with
  | @allocate a n p hn hf =>
    refine ⟨v.recs.cons hn (v.recs.fresh hn hf) fun p' n' a' h1 => ?_, fun ht => (v.good ht).recs _, v.cover⟩
    simp only [alive] at h1
    by_cases hp : p' = p
    · rw [if_pos hp] at h1
      simp only [Option.some.injEq, Prod.mk.injEq] at h1
      exact .inr (by rw [hp, h1.1, h1.2])
    · rw [if_neg hp] at h1
      exact .inl h1
  | allocateNo => exact v.failed
  | @deallocate r T hr rl =>
    obtain ⟨U, e, rfl, -⟩ := release rl
    refine ⟨?_, fun ht => ((v.good ht).execs e).recs _, fun ht s o ho => v.cover ht s o (exec_sub e s o ho)⟩
    simp only [exec_recs e]
    refine v.recs.drop fun p n a h1 => ?_
    simp only [alive] at h1
    by_cases hp : p = r.ptr
    · rw [if_pos hp] at h1; exact nomatch h1
    · rw [if_neg hp] at h1; exact ⟨hp, h1⟩
  | deallocateNo _ => exact v.failed
  | @write p n x r hr h1 h2 =>
    refine ⟨v.recs.same fun _ => rfl, fun ht => ?_, fun ht => v.cover ht.1⟩
    rw [ideal_write]
    exact (v.good ht.1).now fun s a hs => apart_cover (s := s) (o := a) ht.2 (fun h => by cases h) hs (v.cover ht.1 s)
  | @copy d s n c rs rd T hn h1 h2 h3 hs =>
    refine ⟨?_, fun ht => ?_, fun ht t a hm => ?_⟩
    · rw [start_recs hs]; exact v.recs.same fun _ => rfl
    · rw [ideal_copy]; exact start_good (v.good ht.1) (v.cover ht.1) ht.2 hs
    · rcases start_queue hs t a hm with hm | ⟨rfl, rfl⟩
      · have := v.cover (tidy_tail ht) t a hm
        cases c with
        | host => exact this
        | stream u =>
          simp only [pending]
          by_cases hu : t = u
          · rw [if_pos hu]; exact covered_more this
          · rw [if_neg hu]; exact this
      · simp only [pending, if_pos rfl]
        exact covered_mem (.head _)
  | copyUnknown _ => exact v.failed
  | copyLong _ _ => exact v.failed
  | copyWrong _ _ _ => exact v.failed
  | @memset p n x c r T hn h1 h3 hs =>
    refine ⟨?_, fun ht => ?_, fun ht t a hm => ?_⟩
    · rw [start_recs hs]; exact v.recs.same fun _ => rfl
    · rw [ideal_memset]; exact start_good (v.good ht.1) (v.cover ht.1) ht.2 hs
    · rcases start_queue hs t a hm with hm | ⟨rfl, rfl⟩
      · have := v.cover (tidy_tail ht) t a hm
        cases c with
        | host => exact this
        | stream u =>
          simp only [pending]
          by_cases hu : t = u
          · rw [if_pos hu]; exact covered_more this
          · rw [if_neg hu]; exact this
      · simp only [pending, if_pos rfl]
        exact covered_mem (.head _)
  | memsetUnknown _ => exact v.failed
  | memsetLong _ _ => exact v.failed
  | memsetWrong _ _ => exact v.failed
  | reallocateNo _ => exact v.failed
  | reallocateFull _ => exact v.failed
  | @hostPool r n q c hn hr hd hp hf =>
    have hq : q ≠ r.ptr := fun he => v.recs.fresh hn hf r hr he.symm
    refine ⟨?_, fun ht => ?_, fun ht t a hm => ?_⟩
    · simp only [without_cons hq]
      exact v.recs.moved hr hn fun r' h' => v.recs.fresh hn hf r' (List.mem_filter.1 h').1
    · obtain ⟨h0, k, a, hk, ha⟩ := ht
      have cov := v.cover h0
      obtain ⟨rp, rs, ra⟩ := r
      have := v.recs.one _ (v.recs.known _ _ _ hk) _ hr rfl
      simp only [Rec.mk.injEq] at this
      obtain ⟨-, rfl, rfl⟩ := this
      rw [ideal_move m h _ _ _ _ _ _ hk]
      refine ((v.good h0).now fun s b hs => apart_cover (o := b) ha (fun _ => ?_) hs (cov s)).recs _
      simp_all [Umpire.Async.hostPool]
    · have := v.cover (tidy_tail ht) t a hm
      cases c with
      | host => exact this
      | stream u =>
        simp only [pending]
        by_cases hu : t = u
        · rw [if_pos hu]; exact covered_more this
        · rw [if_neg hu]; exact this
  | @host r n q c T hn hr hd hp hf e he =>
    refine ⟨?_, fun ht => ?_, fun ht t a hm => ?_⟩
    · simp only [exec_recs e]
      refine v.recs.moved hr hn fun r' h' => ?_
      intro h2
      have h3 := v.recs.pos r' (List.mem_filter.1 h').1
      have h4 := hf r' h'
      omega
    · obtain ⟨h0, k, a, hk, ha⟩ := ht
      have cov := v.cover h0
      obtain ⟨rp, rs, ra⟩ := r
      have := v.recs.one _ (v.recs.known _ _ _ hk) _ hr rfl
      simp only [Rec.mk.injEq] at this
      obtain ⟨-, rfl, rfl⟩ := this
      rw [ideal_move m h _ _ _ _ _ _ hk]
      refine (((v.good h0).execs e).now fun s b hs => ?_).recs _
      by_cases hc : c = .stream s
      · rw [he s hc] at hs; exact nomatch hs
      · exact apart_cover (o := b) ha (fun h => absurd h hc) (exec_sub e s b hs) (cov s)
    · have := v.cover (tidy_tail ht) t a (exec_sub e t a hm)
      cases c with
      | host => exact this
      | stream u =>
        simp only [pending]
        by_cases hu : t = u
        · rw [if_pos hu]; exact covered_more this
        · rw [if_neg hu]; exact this
  | @device r n q s T hn hr hd hf rl =>
    have hq : q ≠ r.ptr := fun he => v.recs.fresh hn hf r hr he.symm
    obtain ⟨U, e, rfl, hs⟩ := release rl
    refine ⟨?_, fun ht => ?_, fun ht t a hm => ?_⟩
    · simp only [exec_recs e, St.enqueue, without_cons hq]
      exact v.recs.moved hr hn fun r' h' => v.recs.fresh hn hf r' (List.mem_filter.1 h').1
    · obtain ⟨h0, k, a, hk, ha⟩ := ht
      have cov := v.cover h0
      obtain ⟨rp, rs, ra⟩ := r
      have := v.recs.one _ (v.recs.known _ _ _ hk) _ hr rfl
      simp only [Rec.mk.injEq] at this
      obtain ⟨-, rfl, rfl⟩ := this
      rw [ideal_move m h _ _ _ _ _ _ hk]
      refine ((((v.good h0).recs _).enqueue fun t ht a hm => ?_).execs e).recs _
      exact apart_cover (o := a) ha (fun h => absurd (by injection h with h; exact h.symm) ht) hm (cov t)
    · cases hp : r.al.pool with
      | false => rw [hs hd hp] at hm; exact nomatch hm
      | true =>
        have hm := exec_sub e t a hm
        simp only [St.enqueue] at hm
        simp only [pending]
        by_cases hts : t = s
        · rw [if_pos hts] at hm ⊢
          rcases List.mem_append.1 hm with hm | hm
          · exact covered_more (v.cover ht.1 t a hm)
          · rw [List.mem_singleton.1 hm]
            refine covered_mem ?_
            obtain ⟨h0, k, a, hk, ha⟩ := ht
            obtain ⟨rp, rs, ra⟩ := r
            have := v.recs.one _ (v.recs.known _ _ _ hk) _ hr rfl
            simp only [Rec.mk.injEq] at this
            obtain ⟨-, rfl, rfl⟩ := this
            simp only at hk hd hp
            simp only [moveFoot, hk, devicePool, hd, hp, Op.foot, Bool.and_self, Bool.true_and, if_true]
            exact .head _
        · rw [if_neg hts] at hm ⊢
          exact v.cover ht.1 t a hm
  | @deviceWrong r n q hn hr hd hf =>
    exact ⟨v.recs.cons hn (v.recs.fresh hn hf) fun _ _ _ h1 => .inl h1, fun ht => (v.good ht).recs _, v.cover⟩
  | @wait s T e he =>
    refine ⟨?_, fun ht => (v.good ht).execs e, fun ht t a hm => ?_⟩
    · rw [exec_recs e]; exact v.recs.same fun _ => rfl
    · simp only [pending]
      by_cases hts : t = s
      · rw [hts, he] at hm; exact nomatch hm
      · rw [if_neg hts]; exact v.cover ht t a (exec_sub e t a hm)

theorem reach_inv {m : Mem} {h : History} {S : St} (hr : Reach m h S) : Inv m h S := by
  induction hr with
  | init =>
    exact ⟨⟨fun _ _ _ h => (nomatch h), fun _ h => (nomatch h), fun _ h => (nomatch h)⟩,
      fun _ => ⟨fun _ _ _ _ h => (nomatch h), fun _ _ _ => rfl⟩, fun _ _ _ h => (nomatch h)⟩
  | exec _ e ih => exact ih.exec e
  | step _ st ih => exact ih.step st

/-! ## The contents -/

/-- Memory that nothing under way writes has what the calls say.  (Strict: the program
keeps away from memory it reallocated; see `pool_counterexample` and
`host_pool_counterexample` for the programs that do not.) -/
theorem contents_partial {m : Mem} {h : History} {S : St} (hr : Reach m h S) (ht : Tidy true h) (x : Nat)
    (hx : ∀ s, ∀ f ∈ pending true h s, ¬ inside f.write x) : S.mem x = ideal m h x := by
  have v := reach_inv hr
  have none : ∀ t, ∀ o ∈ S.queue t, ¬ inside o.foot.write x := fun t o ho hw => by
    obtain ⟨g, hg, h1⟩ := (v.cover ht t o ho).2 x hw
    exact hx t g hg h1
  have := (v.good ht).mem 0 x fun t _ => none t
  rwa [runs_kept (none 0)] at this

theorem pending_nil {b b' : Bool} {h : History} {s : Nat} (hn : pending b h s = []) : pending b' h s = [] := by
  induction h with
  | nil => rfl
  | cons e h ih =>
    obtain ⟨c, r⟩ := e
    cases r with
    | none =>
      cases c with
      | copy _ _ _ c => cases c <;> exact ih hn
      | memset _ _ _ c => cases c <;> exact ih hn
      | reallocate _ _ c => cases c <;> exact ih hn
      | _ => exact ih hn
    | some q =>
      cases c with
      | copy _ _ _ c =>
        cases c with
        | host => exact ih hn
        | stream t =>
          simp only [pending] at hn ⊢
          by_cases hs : s = t
          · rw [if_pos hs] at hn; exact nomatch hn
          · rw [if_neg hs] at hn ⊢; exact ih hn
      | memset _ _ _ c =>
        cases c with
        | host => exact ih hn
        | stream t =>
          simp only [pending] at hn ⊢
          by_cases hs : s = t
          · rw [if_pos hs] at hn; exact nomatch hn
          · rw [if_neg hs] at hn ⊢; exact ih hn
      | reallocate _ _ c =>
        cases c with
        | host => exact ih hn
        | stream t =>
          simp only [pending] at hn ⊢
          by_cases hs : s = t
          · rw [if_pos hs] at hn; exact nomatch hn
          · rw [if_neg hs] at hn ⊢; exact ih hn
      | wait t =>
        simp only [pending] at hn ⊢
        by_cases hs : s = t
        · rw [if_pos hs]
        · rw [if_neg hs] at hn ⊢; exact ih hn
      | _ => exact ih hn

/-- When all streams have been waited for, the memory is as if every operation had been
done when it was called. -/
theorem waited_partial {m : Mem} {h : History} {S : St} (hr : Reach m h S) (ht : Tidy true h)
    (hw : ∀ s, pending false h s = []) : S.mem = ideal m h :=
  funext fun x => contents_partial hr ht x fun s f hf => by
    rw [pending_nil (hw s)] at hf; exact nomatch hf

/-- The last call is a reallocation of memory of a device pool on stream `t`. -/
def Open : History → Nat → Prop
  | (.reallocate p _ c, some _) :: h, t => c = .stream t ∧ ∃ k a, alive h p = some (k, a) ∧ devicePool a = true
  | _, _ => False

/-- The stream was waited for by the last call. -/
def JustWaited : History → Nat → Prop
  | (.wait s, some _) :: _, t => s = t
  | _, _ => False

/-- Reallocations of memory of pools have a wait next to them: of memory of a device pool
after, of a host pool before. -/
def Fenced : History → Prop
  | [] => True
  | (c, r) :: h => Fenced h ∧ (∀ t, Open h t → c = .wait t ∧ r ≠ none) ∧
      (∀ p n s q, c = .reallocate p n (.stream s) → r = some q →
        ∀ k a, alive h p = some (k, a) → hostPool a = true → JustWaited h s)

theorem waited_nil {b : Bool} {h : History} {s : Nat} (hw : JustWaited h s) : pending b h s = [] := by
  cases h with
  | nil => exact hw.elim
  | cons e h =>
    obtain ⟨c, r⟩ := e
    cases c <;> cases r <;> simp only [JustWaited] at hw
    simp only [pending, hw, if_true]

theorem fenced_pending {h : History} (hf : Fenced h) (s : Nat) (ho : ¬ Open h s) :
    pending true h s = pending false h s := by
  induction h with
  | nil => rfl
  | cons e h ih =>
    obtain ⟨c, r⟩ := e
    have ih' : (c = .wait s ∧ r ≠ none) ∨ pending true h s = pending false h s := by
      by_cases h1 : Open h s
      · exact .inl (hf.2.1 s h1)
      · exact .inr (ih hf.1 h1)
    cases r with
    | none =>
      have ih : pending true h s = pending false h s := by
        rcases ih' with ⟨-, h1⟩ | h1
        · exact absurd rfl h1
        · exact h1
      cases c with
      | copy _ _ _ c => cases c <;> exact ih
      | memset _ _ _ c => cases c <;> exact ih
      | reallocate _ _ c => cases c <;> exact ih
      | _ => exact ih
    | some q =>
      cases c with
      | wait t =>
        simp only [pending]
        by_cases hs : s = t
        · rw [if_pos hs, if_pos hs]
        · rw [if_neg hs, if_neg hs]
          rcases ih' with ⟨h1, -⟩ | h1
          · injection h1 with h1; exact absurd h1.symm hs
          · exact h1
      | copy _ _ _ c =>
        have ih : pending true h s = pending false h s := ih'.resolve_left fun h => (nomatch h.1)
        cases c with
        | host => exact ih
        | stream t => simp only [pending, ih]
      | memset _ _ _ c =>
        have ih : pending true h s = pending false h s := ih'.resolve_left fun h => (nomatch h.1)
        cases c with
        | host => exact ih
        | stream t => simp only [pending, ih]
      | reallocate p n c =>
        have ih : pending true h s = pending false h s := ih'.resolve_left fun h => (nomatch h.1)
        cases c with
        | host => exact ih
        | stream t =>
          simp only [pending, ih]
          by_cases hs : s = t
          · rw [if_pos hs, if_pos hs]
            simp only [moveFoot]
            cases hk : alive h p with
            | none => rfl
            | some z =>
              obtain ⟨k, a⟩ := z
              cases hd : devicePool a with
              | false => simp only [hd, Bool.and_false, Bool.false_eq_true, if_false]
              | true => exact absurd ⟨by rw [hs], k, a, hk, hd⟩ ho
          · rw [if_neg hs, if_neg hs]
      | _ => exact ih'.resolve_left fun h => (nomatch h.1)

/-- A program that waits next to reallocations of memory of pools need not keep away from
anything but what it gave to the streams. -/
theorem fenced_tidy {h : History} (hf : Fenced h) (ht : Tidy false h) : Tidy true h := by
  induction h with
  | nil => trivial
  | cons e h ih =>
    obtain ⟨c, r⟩ := e
    have hh := ih hf.1 (tidy_tail ht)
    cases r with
    | none => cases c <;> exact hh
    | some q =>
      have no : (∀ t, c ≠ .wait t) → ∀ s, pending true h s = pending false h s := fun hc s =>
        fenced_pending hf.1 s fun ho => hc s (hf.2.1 s ho).1
      have ap : (∀ t, c ≠ .wait t) → ∀ x b f, Apart false h x b f → Apart true h x b f :=
        fun hc x b f ha s hs g hg => ha s hs g (by rw [← no hc s]; exact hg)
      cases c with
      | write p n x => exact ⟨hh, ap (fun _ h => (nomatch h)) _ _ _ ht.2⟩
      | copy d s n x => exact ⟨hh, ap (fun _ h => (nomatch h)) _ _ _ ht.2⟩
      | memset p n y x => exact ⟨hh, ap (fun _ h => (nomatch h)) _ _ _ ht.2⟩
      | reallocate p n x =>
        obtain ⟨-, k, a, hk, ha⟩ := ht
        refine ⟨hh, k, a, hk, fun s hs g hg => ?_⟩
        by_cases hx : x = .stream s
        · have hp : hostPool a = true := by simpa using hs hx
          have := hf.2.2 p n s q (by rw [hx]) rfl k a hk hp
          rw [waited_nil this] at hg; exact nomatch hg
        · exact ap (fun _ h => (nomatch h)) _ _ _ ha s (fun h => absurd h hx) g hg
      | _ => exact hh

/-- So such a program has the memory of the synchronous operations. -/
theorem fenced_waited {m : Mem} {h : History} {S : St} (hr : Reach m h S) (hf : Fenced h) (ht : Tidy false h)
    (hw : ∀ s, pending false h s = []) : S.mem = ideal m h :=
  waited_partial hr (fenced_tidy hf ht) hw

/-- A reallocation on a stream and a wait for it: the new memory begins with what the
old memory had. -/
theorem moved_contents {m : Mem} {h : History} {S : St} {p n q s k : Nat} {a : Al}
    (hr : Reach m ((.wait s, some s) :: (.reallocate p n (.stream s), some q) :: h) S)
    (ht : Tidy true ((.reallocate p n (.stream s), some q) :: h)) (ha : alive h p = some (k, a))
    (j : Nat) (hk : j < k) (hj : j < n) : S.mem (q + j) = ideal m h (p + j) := by
  obtain ⟨h0, k', a', hk', hap⟩ := id ht
  rw [ha] at hk'
  injection hk' with hk'
  injection hk' with h1 h2
  subst h1 h2
  have := contents_partial hr ht (q + j) fun t f hf hx => by
    simp only [pending] at hf
    by_cases hts : t = s
    · rw [if_pos hts] at hf; exact nomatch hf
    · rw [if_neg hts, if_neg hts] at hf
      refine hap t (fun h => absurd (by injection h with h; exact h.symm) hts) f hf ⟨q + j, Or.inl ⟨?_, Or.inl hx⟩⟩
      simp only [inside]; omega
  rw [this]
  simp only [ideal, ha]
  rw [if_pos (by omega)]
  congr 1
  omega

/-! ## What happens at all -/

theorem find_mem {S : St} {p : Nat} {r : Rec} (h : S.find p = some r) : r ∈ S.recs ∧ inside (r.ptr, r.size) p := by
  have h1 := List.find?_some h
  exact ⟨List.mem_of_find?_eq_some h, by simpa using h1⟩

/-- A copy that succeeds writes inside an allocation. -/
theorem copy_inside {S T : St} {d s n q : Nat} {c : Ctx} (h : Step S (.copy d s n c) (some q) T) :
    q = d ∧ ∃ r ∈ S.recs, r.ptr ≤ d ∧ d + n ≤ r.ptr + r.size := by
  cases h with
  | copy hn h1 h2 h3 hs =>
    obtain ⟨h4, h5⟩ := find_mem h2
    refine ⟨rfl, _, h4, h5.1, ?_⟩
    simp only [inside] at h5
    omega

/-- So does `memset`. -/
theorem memset_inside {S T : St} {p n v q : Nat} {c : Ctx} (h : Step S (.memset p n v c) (some q) T) :
    q = p ∧ ∃ r ∈ S.recs, r.ptr ≤ p ∧ p + n ≤ r.ptr + r.size := by
  cases h with
  | memset hn h2 h3 hs =>
    obtain ⟨h4, h5⟩ := find_mem h2
    refine ⟨rfl, _, h4, h5.1, ?_⟩
    simp only [inside] at h5
    omega

/-- Operations on device memory need a stream; without one nothing is done. -/
theorem copy_needs_stream {S T : St} {d s n : Nat} {r : Option Nat} {rs rd : Rec} (hs : S.find s = some rs)
    (hd : S.find d = some rd) (hv : rs.al.device = true ∨ rd.al.device = true)
    (h : Step S (.copy d s n .host) r T) : r = none ∧ T = S := by
  cases h with
  | copy hn h1 h2 h3 hst =>
    rw [hs] at h1; rw [hd] at h2
    injection h1 with h1; injection h2 with h2
    subst h1 h2
    have hb : (rs.al.device || rd.al.device) = true := by rcases hv with h | h <;> simp [h]
    rw [hb] at hst
    cases hst
  | copyUnknown _ => exact ⟨rfl, rfl⟩
  | copyLong _ _ => exact ⟨rfl, rfl⟩
  | copyWrong _ _ _ => exact ⟨rfl, rfl⟩

theorem memset_needs_stream {S T : St} {p n v : Nat} {r : Option Nat} {rec : Rec} (hs : S.find p = some rec)
    (hv : rec.al.device = true) (h : Step S (.memset p n v .host) r T) : r = none ∧ T = S := by
  cases h with
  | memset hn h1 h3 hst =>
    rw [hs] at h1
    injection h1 with h1
    subst h1
    rw [hv] at hst
    cases hst
  | memsetUnknown _ => exact ⟨rfl, rfl⟩
  | memsetLong _ _ => exact ⟨rfl, rfl⟩
  | memsetWrong _ _ => exact ⟨rfl, rfl⟩

/-- A reallocation throws too, and keeps the allocation; see `leak_counterexample`. -/
theorem reallocate_needs_stream {m : Mem} {h : History} {S T : St} {p n k : Nat} {r : Option Nat} {a : Al}
    (hr : Reach m h S) (ha : alive h p = some (k, a)) (hv : a.device = true)
    (st : Step S (.reallocate p n .host) r T) :
    r = none ∧ T.mem = S.mem ∧ T.queue = S.queue ∧ ∀ x ∈ S.recs, x ∈ T.recs := by
  have v := (reach_inv hr).recs
  have one : ∀ x ∈ S.recs, x.ptr = p → x.al.device = true := fun x hx he => by
    have := v.one _ (v.known _ _ _ ha) x hx he.symm
    rw [← this]; exact hv
  cases st with
  | reallocateNo _ => exact ⟨rfl, rfl, rfl, fun _ h => h⟩
  | reallocateFull _ => exact ⟨rfl, rfl, rfl, fun _ h => h⟩
  | hostPool _ hx hd _ _ => rw [one _ hx rfl] at hd; exact nomatch hd
  | host _ hx hd _ _ _ _ => rw [one _ hx rfl] at hd; exact nomatch hd
  | deviceWrong _ _ _ _ => exact ⟨rfl, rfl, rfl, fun _ h => .tail _ h⟩

theorem execs_trans {S T U : St} (h : Execs S T) (h' : Execs T U) : Execs S U := by
  induction h' with
  | refl => exact h
  | step _ e ih => exact .step ih e

/-- A stream can always be brought to its end. -/
theorem drains (S : St) (s : Nat) : ∃ T, Execs S T ∧ T.queue s = [] := by
  generalize hl : S.queue s = l
  induction l generalizing S with
  | nil => exact ⟨S, .refl _, hl⟩
  | cons o l ih =>
    obtain ⟨T, h1, h2⟩ := ih ⟨o.run S.mem, S.recs, fun u => if u = s then l else S.queue u⟩ (by simp)
    exact ⟨T, execs_trans (.step (.refl _) (.op hl)) h1, h2⟩

/-- A wait ends. -/
theorem wait_possible (S : St) (s : Nat) : ∃ T, Step S (.wait s) (some s) T :=
  let ⟨T, h1, h2⟩ := drains S s
  ⟨T, .wait h1 h2⟩

theorem start_possible (S : St) (o : Op) {b : Bool} {c : Ctx} (h : b = true → c ≠ .host) :
    ∃ T, Start S o b c (some T) := by
  cases b with
  | false =>
    cases c with
    | host => exact ⟨_, .host⟩
    | stream s =>
      obtain ⟨T, h1, h2⟩ := drains S s
      exact ⟨_, .waited h1 h2⟩
  | true =>
    cases c with
    | host => exact absurd rfl (h rfl)
    | stream s => exact ⟨_, .device⟩

/-- A copy inside two allocations succeeds, with a stream always, and without one between
host memory. -/
theorem copy_possible {S : St} {d s n : Nat} {c : Ctx} {rs rd : Rec} (hn : 0 < n) (h1 : S.find s = some rs)
    (h2 : S.find d = some rd) (h3 : d + n ≤ rd.ptr + rd.size)
    (hc : rs.al.device = true ∨ rd.al.device = true → c ≠ .host) : ∃ T, Step S (.copy d s n c) (some d) T := by
  obtain ⟨T, hT⟩ := start_possible S (.copy s d n) (b := rs.al.device || rd.al.device) (c := c)
    fun h => hc (by simpa using h)
  have := (find_mem h2).2
  simp only [inside] at this
  exact ⟨T, .copy hn h1 h2 (by omega) hT⟩

theorem memset_possible {S : St} {p n v : Nat} {c : Ctx} {r : Rec} (hn : 0 < n) (h2 : S.find p = some r)
    (h3 : p + n ≤ r.ptr + r.size) (hc : r.al.device = true → c ≠ .host) :
    ∃ T, Step S (.memset p n v c) (some p) T := by
  obtain ⟨T, hT⟩ := start_possible S (.set p n v) (b := r.al.device) (c := c) hc
  have := (find_mem h2).2
  simp only [inside] at this
  exact ⟨T, .memset hn h2 (by omega) hT⟩

/-! ## Examples and counterexamples -/

abbrev devPool : Al := ⟨1, true, true⟩
abbrev hstPool : Al := ⟨2, false, true⟩
abbrev dev : Al := ⟨3, true, false⟩

theorem far {a b : Foot} (h1 : a.write.1 + a.write.2 ≤ b.write.1 ∨ b.write.1 + b.write.2 ≤ a.write.1)
    (h2 : a.write.1 + a.write.2 ≤ b.read.1 ∨ b.read.1 + b.read.2 ≤ a.write.1)
    (h3 : a.read.1 + a.read.2 ≤ b.write.1 ∨ b.write.1 + b.write.2 ≤ a.read.1) : ¬ Clash a b := by
  rintro ⟨x, (⟨⟨_, _⟩, ⟨_, _⟩ | ⟨_, _⟩⟩ | ⟨⟨_, _⟩, _, _⟩)⟩ <;> omega

/-- The memory given back by a reallocation on a stream is used again, by code that is
not on the stream, while the copy is under way. -/
def reused : History :=
  [(.wait 0, some 0), (.write 100 8 9, some 100), (.allocate devPool 8, some 100),
   (.reallocate 100 16 (.stream 0), some 200), (.write 100 8 7, some 100), (.allocate devPool 8, some 100)]

/-- Memory of a device pool reallocated on a stream loses its contents: the old memory is
given back before the copy is done (GenericReallocateOperation.cpp:44-46), so the next
allocation may be the same memory.  The program here waits for the stream and touches
nothing but allocations it has. -/
theorem pool_counterexample : ∃ (m : Mem) (S : St), Reach m reused S ∧ Tidy false reused ∧
    (∀ s, pending false reused s = []) ∧ ideal m reused 200 = 7 ∧ S.mem 200 = 9 := by
  have key : ∃ S, Reach (fun _ => 0) reused S ∧ S.mem 200 = 9 := by
    have r1 : Reach (fun _ => 0) [(.allocate devPool 8, some 100)] _ :=
      .step .init (.allocate (p := 100) (by decide) fun _ h => (nomatch h))
    have r2 : Reach (fun _ => 0) ((.write 100 8 7, some 100) :: _) _ :=
      .step r1 (.write (r := ⟨100, 8, devPool⟩) (.head _) (by decide) (by decide))
    have r3 : Reach (fun _ => 0) ((.reallocate 100 16 (.stream 0), some 200) :: _) _ :=
      .step r2 (.device (r := ⟨100, 8, devPool⟩) (q := 200) (by decide) (.head _) rfl
        (by simp [Fresh]) (.now (.inr rfl)))
    have r4 : Reach (fun _ => 0) ((.allocate devPool 8, some 100) :: _) _ :=
      .step r3 (.allocate (p := 100) (by decide) (by simp [Fresh, without, St.enqueue]))
    have r5 : Reach (fun _ => 0) ((.write 100 8 9, some 100) :: _) _ :=
      .step r4 (.write (r := ⟨100, 8, devPool⟩) (.head _) (by decide) (by decide))
    exact ⟨_, .step r5 (.wait (.step (.refl _) (.op (t := 0) (o := .copy 100 200 8) (l := []) rfl)) rfl), rfl⟩
  obtain ⟨S, h1, h2⟩ := key
  refine ⟨fun _ => 0, S, h1, ?_, ?_, rfl, h2⟩
  · refine ⟨⟨⟨trivial, fun s _ g hg => (nomatch hg)⟩, 8, devPool, rfl, fun s _ g hg => (nomatch hg)⟩, fun s _ g hg => ?_⟩
    by_cases hs : s = 0
    · subst hs
      simp [pending, moveFoot, alive] at hg
      subst hg
      exact far (by decide) (by decide) (by decide)
    · simp [pending, hs] at hg
  · intro s
    by_cases hs : s = 0
    · subst hs; rfl
    · simp [reused, pending, hs]

/-- The contents of host memory are on their way when it is reallocated on the same
stream. -/
def early : History :=
  [(.wait 0, some 0), (.reallocate 100 16 (.stream 0), some 200), (.copy 100 300 8 (.stream 0), some 100),
   (.write 300 8 7, some 300), (.allocate dev 8, some 300), (.allocate hstPool 8, some 100)]

/-- Memory of a pool of host memory reallocated on a stream does not get what the stream
was about to write: the copy is done at once without waiting for the stream
(ResourceManager.cpp:744-747), while `HOST` waits. -/
theorem host_pool_counterexample : ∃ (m : Mem) (S : St), Reach m early S ∧ Tidy false early ∧
    (∀ s, pending false early s = []) ∧ ideal m early 200 = 7 ∧ S.mem 200 = 0 := by
  have key : ∃ S, Reach (fun _ => 0) early S ∧ S.mem 200 = 0 := by
    have r1 : Reach (fun _ => 0) [(.allocate hstPool 8, some 100)] _ :=
      .step .init (.allocate (p := 100) (by decide) fun _ h => (nomatch h))
    have r2 : Reach (fun _ => 0) ((.allocate dev 8, some 300) :: _) _ :=
      .step r1 (.allocate (p := 300) (by decide) (by simp [Fresh]))
    have r3 : Reach (fun _ => 0) ((.write 300 8 7, some 300) :: _) _ :=
      .step r2 (.write (r := ⟨300, 8, dev⟩) (.head _) (by decide) (by decide))
    have r4 : Reach (fun _ => 0) ((.copy 100 300 8 (.stream 0), some 100) :: _) _ :=
      .step r3 (.copy (rs := ⟨300, 8, dev⟩) (rd := ⟨100, 8, hstPool⟩) (by decide) rfl rfl (by decide) .device)
    have r5 : Reach (fun _ => 0) ((.reallocate 100 16 (.stream 0), some 200) :: _) _ :=
      .step r4 (.hostPool (r := ⟨100, 8, hstPool⟩) (q := 200) (by decide) (.tail _ (.head _)) rfl rfl
        (by simp [Fresh, St.enqueue]))
    exact ⟨_, .step r5 (.wait (.step (.refl _) (.op (t := 0) (o := .copy 300 100 8) (l := []) rfl)) rfl), rfl⟩
  obtain ⟨S, h1, h2⟩ := key
  refine ⟨fun _ => 0, S, h1, ?_, ?_, rfl, h2⟩
  · refine ⟨⟨⟨trivial, fun s _ g hg => (nomatch hg)⟩, fun s _ g hg => (nomatch hg)⟩, 8, hstPool, rfl, fun s hs g hg => ?_⟩
    by_cases h0 : s = 0
    · subst h0; exact absurd (hs rfl) (by decide)
    · simp [pending, h0] at hg
  · intro s
    by_cases hs : s = 0
    · subst hs; rfl
    · simp [early, pending, hs]

/-- A reallocation of device memory with the host as resource throws and leaves an
allocation that the program does not know (GenericReallocateOperation.cpp:39-44). -/
theorem leak_counterexample : ∃ (m : Mem) (h : History) (S : St), Reach m h S ∧
    h = [(.reallocate 100 16 .host, none), (.allocate dev 8, some 100)] ∧
    ∃ r ∈ S.recs, r.ptr = 200 ∧ r.size = 16 ∧ alive h 200 = none := by
  refine ⟨fun _ => 0, _, ⟨fun _ => 0, [⟨200, 16, dev⟩, ⟨100, 8, dev⟩], fun _ => []⟩, ?_, rfl, _, .head _, rfl, rfl, rfl⟩
  · have r1 : Reach (fun _ => 0) [(.allocate dev 8, some 100)] ⟨fun _ => 0, [⟨100, 8, dev⟩], fun _ => []⟩ :=
      .step .init (.allocate (p := 100) (by decide) fun _ h => (nomatch h))
    exact .step r1 (.deviceWrong (r := ⟨100, 8, dev⟩) (q := 200) (by decide) (.head _) rfl (by simp [Fresh]))

/-- The source of a copy is not checked: it may end behind its allocation. -/
theorem source_counterexample : ∃ (m : Mem) (S : St),
    Reach m [(.copy 300 100 16 (.stream 0), some 300), (.allocate dev 16, some 300), (.allocate dev 8, some 100)] S := by
  have r1 : Reach (fun _ => 0) [(.allocate dev 8, some 100)] _ :=
    .step .init (.allocate (p := 100) (by decide) fun _ h => (nomatch h))
  have r2 : Reach (fun _ => 0) ((.allocate dev 16, some 300) :: _) _ :=
    .step r1 (.allocate (p := 300) (by decide) (by simp [Fresh]))
  exact ⟨_, _, .step r2 (.copy (rs := ⟨100, 8, dev⟩) (rd := ⟨300, 16, dev⟩) (by decide) rfl rfl (by decide) .device)⟩

/-- Two streams at work: device memory is filled on stream 1 and reallocated on it, other
memory is filled on stream 2. -/
def busy : History :=
  [(.wait 1, some 1), (.reallocate 100 16 (.stream 1), some 200), (.memset 300 8 5 (.stream 2), some 300),
   (.memset 100 8 7 (.stream 1), some 100), (.allocate dev 8, some 300), (.allocate devPool 8, some 100)]

theorem busy_tidy : Tidy true busy := by
  refine ⟨⟨⟨trivial, fun s hs g hg => ?_⟩, fun s hs g hg => ?_⟩, 8, devPool, rfl, fun s hs g hg => ?_⟩
  · exact nomatch hg
  · by_cases h1 : s = 1
    · subst h1
      simp [pending] at hg
      subst hg
      exact far (by decide) (by decide) (by decide)
    · simp [pending, h1] at hg
  · by_cases h1 : s = 1
    · subst h1; exact absurd (hs rfl) (by decide)
    · by_cases h2 : s = 2
      · subst h2
        simp [pending] at hg
        subst hg
        exact far (by decide) (by decide) (by decide)
      · simp [pending, h1, h2] at hg

theorem busy_reach : ∃ S, Reach (fun _ => 0) busy S ∧ S.queue 2 = [.set 300 8 5] := by
  have r1 : Reach (fun _ => 0) [(.allocate devPool 8, some 100)] _ :=
    .step .init (.allocate (p := 100) (by decide) fun _ h => (nomatch h))
  have r2 : Reach (fun _ => 0) ((.allocate dev 8, some 300) :: _) _ :=
    .step r1 (.allocate (p := 300) (by decide) (by simp [Fresh]))
  have r3 : Reach (fun _ => 0) ((.memset 100 8 7 (.stream 1), some 100) :: _) _ :=
    .step r2 (.memset (r := ⟨100, 8, devPool⟩) (by decide) rfl (by decide) .device)
  have r4 : Reach (fun _ => 0) ((.memset 300 8 5 (.stream 2), some 300) :: _) _ :=
    .step r3 (.memset (r := ⟨300, 8, dev⟩) (by decide) rfl (by decide) .device)
  have r5 : Reach (fun _ => 0) ((.reallocate 100 16 (.stream 1), some 200) :: _) _ :=
    .step r4 (.device (r := ⟨100, 8, devPool⟩) (q := 200) (by decide) (.tail _ (.head _)) rfl
      (by simp [Fresh, St.enqueue]) (.now (.inr rfl)))
  exact ⟨_, .step r5 (.wait (.step (.step (.refl _) (.op (t := 1) (o := .set 100 8 7) (l := [.copy 100 200 8]) rfl))
    (.op (t := 1) (o := .copy 100 200 8) (l := []) rfl)) rfl), rfl⟩

/-- The new memory has the contents although stream 2 is not done. -/
example : ∃ S, Reach (fun _ => 0) busy S ∧ S.queue 2 ≠ [] ∧ S.mem 203 = 7 := by
  obtain ⟨S, h1, h2⟩ := busy_reach
  exact ⟨S, h1, by rw [h2]; simp, moved_contents h1 busy_tidy (k := 8) (a := devPool) rfl 3 (by decide) (by decide)⟩

/-- … and it is a program as in `fenced_waited` once it waits for stream 2 too. -/
example : Fenced ((.wait 2, some 2) :: busy) := by
  simp [Fenced, busy, Open, JustWaited, alive, devicePool, hostPool]
  rintro _ _ _ _ rfl rfl rfl rfl k a h
  simp at h
  simp [← h.2]

example : ∃ S : St, S.queue 0 = [.set 100 8 7] ∧ ∃ T, Step S (.wait 0) (some 0) T :=
  ⟨⟨fun _ => 0, [], fun _ => [.set 100 8 7]⟩, rfl, wait_possible _ _⟩

end Umpire.Async
