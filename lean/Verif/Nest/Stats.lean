import Verif.Nest.Place
/-!
# The statistics of allocators that are built on each other

Every strategy keeps `m_current_size`, `m_allocation_count` and `m_high_watermark`
(src/umpire/strategy/AllocationStrategy.hpp:118-121).  A request of a user changes
them after the strategy has answered (`Inspector::registerAllocation`,
src/umpire/strategy/mixins/Inspector.cpp:16-26, called in Allocator.inl:43-45), a
request of another strategy before it is carried out
(`AllocationStrategy::allocate_internal`, AllocationStrategy.cpp:20-30).

`Arr.crun` is `Arr.sys.run` with these numbers.  A memory resource is a strategy, too:
it is the node at the bottom, of the kind that forwards.  Requests of users are for
more than zero bytes, allocators are tracked; the numbers are not bounded by 2^64.
`Acct.log` is not in the code: it is what has happened to the account, for the
specification.
-/
set_option autoImplicit false
set_option linter.unusedSimpArgs false
namespace Umpire.Nest
open Umpire.Prog

/-- What happened to an account, the latest first: memory was given to a user or to
another strategy; bytes were charged but no memory was given; memory came back. -/
inductive Entry where
  | given (n : Nat)
  | lost (n : Nat)
  | back (n : Nat)
deriving DecidableEq, Repr

/-- `m_current_size`, `m_allocation_count`, `m_high_watermark`. -/
structure Acct where
  cur : Nat := 0
  count : Nat := 0
  hwm : Nat := 0
  log : List Entry := []
deriving DecidableEq, Repr

/-- `m_current_size += n; m_allocation_count++; if (m_current_size > m_high_watermark) …`
(AllocationStrategy.cpp:22-27, Inspector.cpp:18-23). -/
def Acct.charge (a : Acct) (n : Nat) (e : Entry) : Acct :=
  { cur := a.cur + n, count := a.count + 1, hwm := if a.cur + n > a.hwm then a.cur + n else a.hwm, log := e :: a.log }

/-- `m_current_size -= n; m_allocation_count--` (AllocationStrategy.cpp:51-52,
Inspector.cpp:44-45). -/
def Acct.refund (a : Acct) (n : Nat) : Acct :=
  { a with cur := a.cur - n, count := a.count - 1, log := .back n :: a.log }

/-- `allocate_internal(n)` whose `allocate(n)` answers `r` (AllocationStrategy.cpp:20-30):
the account is charged before the answer is known. -/
def Acct.inner (a : Acct) (r : Option Nat) (n : Nat) : Acct :=
  match r with
  | none => a.charge n (.lost n)
  | some p => a.charge n (if p = 0 then .lost n else .given n)

/-- `Allocator::do_allocate` (Allocator.inl:22-50): an exception from `allocate` leaves the
account alone; a null pointer is charged by `Inspector::registerAllocation` before
`ResourceManager::registerAllocation` rejects it (Inspector.cpp:16-26,
ResourceManager.cpp:342-346). -/
def Acct.user (a : Acct) (r : Option Nat) (n : Nat) : Acct :=
  match r with
  | none => a
  | some p => a.charge n (if p = 0 then .lost n else .given n)

/-- A strategy with its account, as other strategies use it. -/
def countS (S : Strat) : Strat where
  σ := S.σ × Acct
  Op := S.Op
  make := S.make.bind fun r => .ret (r.map fun s => (s, {}))
  alloc := fun s n => (S.alloc s.1 n).bind fun r => .ret (r.1, (r.2, s.2.inner r.1 n))
  dealloc := fun s p n => (S.dealloc s.1 p n).bind fun r => .ret (r.1, (r.2, s.2.refund n))
  op := fun o s => (S.op o s.1).bind fun x => .ret (x, s.2)

/-- The accounts of all strategies of an arrangement. -/
def Arr.Accts : Arr → Type
  | .none => Unit
  | .node _ _ kids => Acct × kids.Accts
  | .par a b => a.Accts × b.Accts

/-- All empty. -/
def Arr.acct0 : (a : Arr) → a.Accts
  | .none => ()
  | .node _ _ kids => (({} : Acct), kids.acct0)
  | .par a b => (a.acct0, b.acct0)

/-- `Arr.sys.run` with the accounts. -/
def Arr.crun : (a : Arr) → a.sys.Cmd → a.sys.σ × a.Accts → Prog (Option Nat × (a.sys.σ × a.Accts))
  | .none, c, _ => nomatch c
  | .node k _ kids, c, (t, ac) =>
    let t : NodeSt k.strat.σ kids.sys.σ := t
    let ac : Acct × kids.Accts := ac
    match (c : NodeCmd k.strat.Op kids.sys.Cmd), t.own with
    | .make, Option.none => k.strat.make.bind fun r => .ret (Option.none, ({ t with own := r }, ac))
    | .alloc n, some s => (k.strat.alloc s n).bind fun r =>
        .ret (r.1, ({ t with own := some r.2, user := record r.1 n t.user }, (ac.1.user r.1 n, ac.2)))
    | .dealloc p, some s =>
      match t.user.find? (fun u => u.1 = p) with
      | Option.none => .fail .ub
      | some u => (k.strat.dealloc s p u.2).bind fun r =>
          .ret (Option.none, ({ t with own := some r.2, user := Umpire.drop p t.user }, (ac.1.refund u.2, ac.2)))
    | .op o, some s => (k.strat.op o s).bind fun s => .ret (Option.none, ({ t with own := some s }, ac))
    | .down c, some s => (through (countS k.strat) (kids.crun c (t.kids, ac.2)) (s, ac.1)).bind fun r =>
        .ret (r.1.1, ({ t with own := some r.2.1, kids := r.1.2.1 }, (r.2.2, r.1.2.2)))
    | _, _ => .ret (Option.none, (t, ac))
  | .par a b, c, (t, ac) =>
    match (c : a.sys.Cmd ⊕ b.sys.Cmd) with
    | .inl c => (a.crun c (t.1, ac.1)).bind fun r => .ret (r.1, ((r.2.1, t.2), (r.2.2, ac.2)))
    | .inr c => (b.crun c (t.2, ac.2)).bind fun r => .ret (r.1, ((t.1, r.2.1), (ac.1, r.2.2)))

/-- The arrangement with its accounts. -/
def Arr.csys (a : Arr) : Sys where
  σ := a.sys.σ × a.Accts
  Cmd := a.sys.Cmd
  init := (a.sys.init, a.acct0)
  can := fun c t => a.sys.can c t.1
  run := a.crun
  live := fun t => a.sys.live t.1
  keep := fun c t => a.sys.keep c t.1

/-! ## Forgetting the accounts -/

theorem through_bind {S : Strat} {α β : Type} (p : Prog α) (g : α → β) (s : S.σ) :
    through S (p.bind fun a => .ret (g a)) s = (through S p s).bind fun r => .ret (g r.1, r.2) := by
  induction p generalizing s with
  | ret a => rfl
  | fail b => rfl
  | alloc n k ih =>
    show (S.alloc s n).bind _ = ((S.alloc s n).bind _).bind _
    rw [bind_assoc]
    congr
    funext r
    exact ih _ _
  | dealloc q m k ih =>
    show (S.dealloc s q m).bind _ = ((S.dealloc s q m).bind _).bind _
    rw [bind_assoc]
    congr
    funext r
    cases r.1
    · rfl
    · exact ih _

theorem through_count {S : Strat} {α : Type} (p : Prog α) (s : S.σ) (x : Acct) :
    ((through (countS S) p (s, x)).bind fun r => .ret (r.1, r.2.1)) = through S p s := by
  induction p generalizing s x with
  | ret a => rfl
  | fail b => rfl
  | alloc n k ih =>
    refine (Prog.bind_assoc _ _ _).trans ((Prog.bind_assoc _ _ _).trans ?_)
    refine congrArg (Prog.bind (S.alloc s n)) (funext fun r => ?_)
    exact ih _ _ _
  | dealloc q m k ih =>
    refine (Prog.bind_assoc _ _ _).trans ((Prog.bind_assoc _ _ _).trans ?_)
    refine congrArg (Prog.bind (S.dealloc s q m)) (funext fun r => ?_)
    obtain ⟨b, s'⟩ := r
    cases b
    · rfl
    · exact ih _ _

/-- Without the accounts it is the arrangement of `Verif/Nest/Arr.lean`. -/
theorem Arr.crun_erase (a : Arr) (c : a.sys.Cmd) (t : a.sys.σ) (ac : a.Accts) :
    ((a.crun c (t, ac)).bind fun r => .ret (r.1, r.2.1)) = a.sys.run c t := by
  induction a with
  | none => cases c
  | node k cap kids ih =>
    obtain ⟨own, user, ks⟩ := t
    obtain ⟨x, ka⟩ := ac
    cases own with
    | none =>
      cases c with
      | make =>
        show (k.strat.make.bind _).bind _ = k.strat.make.bind _
        rw [bind_assoc]; rfl
      | _ => rfl
    | some s =>
      cases c with
      | make => rfl
      | alloc n =>
        show ((k.strat.alloc s n).bind _).bind _ = (k.strat.alloc s n).bind _
        rw [bind_assoc]; rfl
      | dealloc p =>
        have h1 : (Arr.node k cap kids).crun (NodeCmd.dealloc p) (⟨some s, user, ks⟩, (x, ka)) =
          (match user.find? (fun u => u.1 = p) with
          | Option.none => .fail .ub
          | some u => (k.strat.dealloc s p u.2).bind fun r =>
            .ret (Option.none, ((⟨some r.2, Umpire.drop p user, ks⟩ : NodeSt k.strat.σ kids.sys.σ), (x.refund u.2, ka)))) := rfl
        have h2 : (Arr.node k cap kids).sys.run (NodeCmd.dealloc p) ⟨some s, user, ks⟩ =
          (match user.find? (fun u => u.1 = p) with
          | Option.none => .fail .ub
          | some u => (k.strat.dealloc s p u.2).bind fun r =>
            .ret (Option.none, (⟨some r.2, Umpire.drop p user, ks⟩ : NodeSt k.strat.σ kids.sys.σ))) := rfl
        rw [h1, h2]
        cases user.find? (fun u => u.1 = p) with
        | none => rfl
        | some u => simp only [bind_assoc, ret_bind]
      | op o =>
        show ((k.strat.op o s).bind _).bind _ = (k.strat.op o s).bind _
        rw [bind_assoc]; rfl
      | down c =>
        show ((through (countS k.strat) (kids.crun c (ks, ka)) (s, x)).bind _).bind _ =
          (through k.strat (kids.sys.run c ks) s).bind _
        have e1 : through k.strat (kids.sys.run c ks) s =
            (through (countS k.strat) (kids.crun c (ks, ka)) (s, x)).bind fun r => .ret ((r.1.1, r.1.2.1), r.2.1) := by
          rw [← ih c ks ka, through_bind, ← through_count _ s x]
          exact Prog.bind_assoc _ _ _
        rw [e1]
        refine Eq.trans (b := ?m) ?_ (Eq.symm ?_)
        case m =>
          exact (through (countS k.strat) (kids.crun c (ks, ka)) (s, x)).bind fun r =>
            .ret (r.1.1, (⟨some r.2.1, user, r.1.2.1⟩ : NodeSt k.strat.σ kids.sys.σ))
        · exact Prog.bind_assoc _ _ _
        · exact Prog.bind_assoc _ _ _
  | par a b iha ihb =>
    obtain ⟨t1, t2⟩ := t
    obtain ⟨x1, x2⟩ := ac
    cases c with
    | inl c =>
      show ((a.crun c (t1, x1)).bind _).bind _ = (a.sys.run c t1).bind _
      rw [← iha c t1 x1]
      refine Eq.trans (b := ?m) ?_ (Eq.symm ?_)
      case m => exact (a.crun c (t1, x1)).bind fun r => .ret (r.1, (r.2.1, t2))
      · exact Prog.bind_assoc _ _ _
      · exact Prog.bind_assoc _ _ _
    | inr c =>
      show ((b.crun c (t2, x2)).bind _).bind _ = (b.sys.run c t2).bind _
      rw [← ihb c t2 x2]
      refine Eq.trans (b := ?m) ?_ (Eq.symm ?_)
      case m => exact (b.crun c (t2, x2)).bind fun r => .ret (r.1, (t1, r.2.1))
      · exact Prog.bind_assoc _ _ _
      · exact Prog.bind_assoc _ _ _

/-! ## Specification of an account -/

/-- The bytes charged. -/
def level : List Entry → Nat
  | [] => 0
  | .given n :: l => level l + n
  | .lost n :: l => level l + n
  | .back n :: l => level l - n

/-- The most that was ever charged. -/
def peak : List Entry → Nat
  | [] => 0
  | e :: l => max (level (e :: l)) (peak l)

/-- Bytes charged for which there was no memory, and how often that happened. -/
def lostBytes : List Entry → Nat
  | [] => 0
  | .lost n :: l => lostBytes l + n
  | _ :: l => lostBytes l

def lostCount : List Entry → Nat
  | [] => 0
  | .lost _ :: l => lostCount l + 1
  | _ :: l => lostCount l

/-- Their sizes added up. -/
def bytes (U : Held) : Nat := (U.map (·.2)).sum

theorem bytes_append (A B : Held) : bytes (A ++ B) = bytes A + bytes B := by simp [bytes]

theorem bytes_perm {A B : Held} (h : A.Perm B) : bytes A = bytes B := (h.map _).sum_nat

theorem bytes_cons (p n : Nat) (U : Held) : bytes ((p, n) :: U) = n + bytes U := by simp [bytes]

/-- The account is that of a strategy that has given out `U`. -/
structure Acct.Right (a : Acct) (U : Held) : Prop where
  cur : a.cur = bytes U + lostBytes a.log
  count : a.count = U.length + lostCount a.log
  lvl : a.cur = level a.log
  hwm : a.hwm = peak a.log

theorem Acct.Right.perm {a : Acct} {U V : Held} (h : a.Right U) (hp : U.Perm V) : a.Right V :=
  ⟨by rw [h.cur, bytes_perm hp], by rw [h.count, hp.length_eq], h.lvl, h.hwm⟩

theorem Acct.right_init : ({} : Acct).Right [] := ⟨rfl, rfl, rfl, rfl⟩

theorem Acct.Right.given {a : Acct} {U : Held} (h : a.Right U) (p n : Nat) : (a.charge n (.given n)).Right ((p, n) :: U) := by
  obtain ⟨h1, h2, h3, h4⟩ := h
  refine ⟨?_, ?_, ?_, ?_⟩
  · simp only [Acct.charge, bytes_cons, lostBytes]; omega
  · simp only [Acct.charge, List.length_cons, lostCount]; omega
  · simp only [Acct.charge, level]; omega
  · simp only [Acct.charge, peak, level]; split <;> omega

theorem Acct.Right.lost {a : Acct} {U : Held} (h : a.Right U) (n : Nat) : (a.charge n (.lost n)).Right U := by
  obtain ⟨h1, h2, h3, h4⟩ := h
  refine ⟨?_, ?_, ?_, ?_⟩
  · simp only [Acct.charge, lostBytes]; omega
  · simp only [Acct.charge, lostCount]; omega
  · simp only [Acct.charge, level]; omega
  · simp only [Acct.charge, peak, level]; split <;> omega

theorem Acct.Right.inner {a : Acct} {U : Held} (h : a.Right U) (r : Option Nat) (n : Nat) : (a.inner r n).Right (record r n U) := by
  cases r with
  | none => exact h.lost n
  | some p =>
    unfold Acct.inner record
    by_cases hp : p = 0
    · simp only [hp, if_true]; exact h.lost n
    · simp only [hp, if_false]; exact h.given p n

theorem Acct.Right.user {a : Acct} {U : Held} (h : a.Right U) (r : Option Nat) (n : Nat) : (a.user r n).Right (record r n U) := by
  cases r with
  | none => exact h
  | some p => exact h.inner (some p) n

theorem drop_perm {U : Held} {p n : Nat} (hd : U.Disjoint) (hp : ∀ u ∈ U, 0 < u.2) (h : (p, n) ∈ U) :
    U.Perm ((p, n) :: Umpire.drop p U) := by
  obtain ⟨A, B, rfl⟩ := List.append_of_mem h
  have hd' := hd
  rw [drop_append_right (m := n) hd hp (by simp)]
  refine List.perm_middle.trans ?_
  refine List.Perm.cons _ (List.Perm.append_left A ?_)
  have h2 := (List.pairwise_append.1 hd').2.1
  have h3 : Umpire.drop p ((p, n) :: B) = B := by
    unfold Umpire.drop
    rw [List.filter_cons_of_neg (by simp)]
    refine List.filter_eq_self.2 fun b hb => ?_
    have h4 := (List.pairwise_cons.1 h2).1 b hb
    have h5 := hp b (List.mem_append_right _ (List.mem_cons_of_mem _ hb))
    have h6 := hp _ h
    unfold Disj at h4
    simp only [decide_not, Bool.not_eq_eq_eq_not, Bool.not_true, decide_eq_false_iff_not]
    simp only at h4 h6
    omega
  rw [h3]

theorem Acct.Right.refund {a : Acct} {U : Held} {p n : Nat} (h : a.Right U) (hd : U.Disjoint) (hp : ∀ u ∈ U, 0 < u.2)
    (hm : (p, n) ∈ U) : (a.refund n).Right (Umpire.drop p U) := by
  obtain ⟨h1, h2, h3, h4⟩ := h.perm (drop_perm hd hp hm)
  rw [bytes_cons] at h1
  rw [List.length_cons] at h2
  refine ⟨?_, ?_, ?_, ?_⟩
  · simp only [Acct.refund, lostBytes]; omega
  · simp only [Acct.refund, lostCount]; omega
  · simp only [Acct.refund, level]; omega
  · have : level a.log ≤ peak a.log := by
      cases a.log with
      | nil => exact Nat.le_refl _
      | cons e l => exact Nat.le_max_left _ _
    simp only [Acct.refund, peak, level]; omega

theorem countS_ok {S : Strat} {adm ask : Nat → Prop} {nn : Prop} {Inv : S.σ → Held → Held → Prop} (h : S.Ok adm ask nn Inv) :
    (countS S).Ok adm ask nn fun s O U => Inv s.1 O U ∧ s.2.Right U where
  good := fun hi => h.good hi.1
  make := by
    refine wpa_bind (wpa_mono h.make ?_)
    intro r O' h1
    cases r with
    | none => exact h1
    | some s => exact ⟨h1, Acct.right_init⟩
  alloc := by
    rintro ⟨s, a⟩ O U n ⟨hi, ha⟩ hn
    refine wpa_bind (wpa_mono (h.alloc hi hn) ?_)
    rintro ⟨r, s'⟩ O' ⟨h1, h2⟩
    exact ⟨⟨h1, ha.inner r n⟩, h2⟩
  dealloc := by
    rintro ⟨s, a⟩ O U p n ⟨hi, ha⟩ hm
    refine wpa_bind (wpa_mono (h.dealloc hi hm) ?_)
    rintro ⟨r, s'⟩ O' h1
    have hg := h.good hi
    exact ⟨h1, ha.refund hg.disj hg.upos hm⟩
  op := by
    rintro ⟨s, a⟩ O U o ⟨hi, ha⟩
    refine wpa_bind (wpa_mono (h.op o hi) ?_)
    intro s' O' h1
    exact ⟨h1, ha⟩

/-! ## What an allocator holds -/

/-- What the getters of a strategy say about the memory it holds from its parent: bytes
and number of blocks.  Pools ask for `alignment` bytes more than they add to
`getActualSize` (AlignedAllocation.inl:25, QuickPool.cpp:84, DynamicSizePool.hpp:113); a
`FixedPool` asks for `numPools()` times `m_data_bytes`.  Strategies without memory of their
own hold what they have given out. -/
def Kind.holds : (k : Kind) → k.strat.σ → Acct → Nat × Nat
  | .quick cfg _, (s : QuickPool.State), _ =>
    (QuickPool.getActualSize s + cfg.align * QuickPool.getTotalBlocks s, QuickPool.getTotalBlocks s)
  | .dyn cfg _, (s : DynPool.State), _ =>
    (DynPool.getActualSize s + cfg.align * DynPool.getTotalBlocks s, DynPool.getTotalBlocks s)
  | .fixed cfg, (s : FixedPool.State), _ => (FixedPool.numPools s * cfg.data, FixedPool.numPools s)
  | .mixed cfg _, (s : MixedPool.State), _ =>
    ((s.fixed.map fun f => FixedPool.numPools f.2 * f.1.data).sum + QuickPool.getActualSize s.quick +
        cfg.quick.align * QuickPool.getTotalBlocks s.quick,
      (s.fixed.map fun f => FixedPool.numPools f.2).sum + QuickPool.getTotalBlocks s.quick)
  | .mono c, _, _ => (c, 1)
  | .slots _, (s : SlotPool.State), _ =>
    (((s.filter fun x => x.ptr ≠ 0).map fun x => x.len.natAbs).sum, (s.filter fun x => x.ptr ≠ 0).length)
  | .limiter _, _, a => (a.cur - lostBytes a.log, a.count - lostCount a.log)
  | .forward _, _, a => (a.cur - lostBytes a.log, a.count - lostCount a.log)
  | .aligned _, _, a => (a.cur - lostBytes a.log, a.count - lostCount a.log)

/-- `getCurrentSize()` (AllocationStrategy.cpp:77-80, FixedPool.cpp:189-192,
MonotonicAllocationStrategy.cpp:50-54). -/
def Kind.getCurrentSize : (k : Kind) → k.strat.σ → Acct → Nat
  | .fixed _, (s : FixedPool.State), _ => FixedPool.getCurrentSize s
  | .mono _, (s : Monotonic.State), _ => s.size
  | _, _, a => a.cur

/-- `getHighWatermark()` (AllocationStrategy.cpp:82-85, FixedPool.cpp:199-202,
MonotonicAllocationStrategy.cpp:56-60). -/
def Kind.getHighWatermark : (k : Kind) → k.strat.σ → Acct → Nat
  | .fixed _, (s : FixedPool.State), _ => FixedPool.getHighWatermark s
  | .mono _, (s : Monotonic.State), _ => s.cap
  | _, _, a => a.hwm

/-- `getActualSize()` (AllocationStrategy.cpp:92-95, QuickPool.cpp:263-267,
DynamicPoolList.cpp:67-72, FixedPool.cpp:194-197, MixedPool.cpp:101-109). -/
def Kind.getActualSize : (k : Kind) → k.strat.σ → Acct → Nat
  | .quick _ _, (s : QuickPool.State), _ => QuickPool.getActualSize s
  | .dyn _ _, (s : DynPool.State), _ => DynPool.getActualSize s
  | .fixed _, (s : FixedPool.State), _ => FixedPool.getActualSize s
  | .mixed _ _, (s : MixedPool.State), _ => (s.fixed.map fun f => FixedPool.getActualSize f.2).sum + QuickPool.getActualSize s.quick
  | k, s, a => k.getCurrentSize s a

/-- Those without a `getCurrentSize` of their own. -/
def Kind.Plain : Kind → Prop
  | .fixed _ => False
  | .mono _ => False
  | _ => True

/-- For these that is what it holds. -/
def Kind.Keeps : Kind → Prop
  | .forward k => Sure k
  | .aligned _ => False
  | _ => True

/-- All allocators of the group together. -/
def Arr.holds : (a : Arr) → a.sys.σ → a.Accts → Nat × Nat
  | .none, _, _ => (0, 0)
  | .node k _ kids, t, ac =>
    match (NodeSt.own t : Option k.strat.σ) with
    | Option.none => (0, 0)
    | some s => k.holds s (Prod.fst (ac : Acct × kids.Accts))
  | .par a b, t, ac =>
    let x := a.holds (Prod.fst (t : a.sys.σ × b.sys.σ)) (Prod.fst (ac : a.Accts × b.Accts))
    let y := b.holds (Prod.snd (t : a.sys.σ × b.sys.σ)) (Prod.snd (ac : a.Accts × b.Accts))
    (x.1 + y.1, x.2 + y.2)

def Arr.Keeps : Arr → Prop
  | .none => True
  | .node k _ _ => k.Keeps
  | .par a b => a.Keeps ∧ b.Keeps

theorem bytes_const {l : List Nat} {c : Nat} : (l.map fun _ => c).sum = l.length * c := by
  induction l with
  | nil => simp
  | cons x l ih => simp only [List.map_cons, List.sum_cons, List.length_cons, ih, Nat.succ_mul]; omega

/-- What a `QuickPool` holds. -/
theorem quick_holds {al : Nat} {s : QuickPool.State} {O U : Held} (h : QuickPool.Inv al s O U) :
    bytes O = s.actualBytes + al * s.totalBlocks ∧ O.length = s.totalBlocks := by
  have h1 : (s.baseMap.map (·.1)).Perm (s.blocks.map QuickPool.start) := h.bases
  have hlen : s.baseMap.length = s.blocks.length := by simpa using h1.length_eq
  have hO : O.length = s.totalBlocks := by rw [h.own, List.length_map, hlen, h.total]
  refine ⟨?_, hO⟩
  have hd : (s.blocks.map QuickPool.start).Nodup := h1.nodup_iff.1 h.keys
  -- the entries one by one
  suffices hs : ∀ (E : List (Nat × Nat × Nat)) (bs : List (List QuickPool.Chunk)), (E.map (·.1)).Perm (bs.map QuickPool.start) →
      (∀ b ∈ bs, ∀ e ∈ E, e.1 = QuickPool.start b → e.2.2 = QuickPool.bsize b + al) →
      bytes (E.map (·.2)) = (bs.map QuickPool.bsize).sum + al * bs.length by
    rw [h.own, hs s.baseMap s.blocks h1 fun b hb e he hx => (h.inside b hb e he hx).2, h.actual, h.total]
  intro E
  induction E with
  | nil =>
    intro bs hp _
    have : bs = [] := by
      have := hp.length_eq
      simp only [List.map_nil, List.length_nil, List.length_map] at this
      exact List.eq_nil_of_length_eq_zero this.symm
    subst this
    rfl
  | cons e E ih =>
    intro bs hp hi
    have hm : e.1 ∈ bs.map QuickPool.start := hp.mem_iff.1 (by simp)
    obtain ⟨b, hb, he⟩ := List.mem_map.1 hm
    obtain ⟨A, B, rfl⟩ := List.append_of_mem hb
    have hp' : (E.map (·.1)).Perm ((A ++ B).map QuickPool.start) := by
      have : (e.1 :: E.map (·.1)).Perm (e.1 :: (A ++ B).map QuickPool.start) := by
        refine hp.trans ?_
        simp only [List.map_append, List.map_cons, he]
        exact List.perm_middle
      exact this.cons_inv
    have := ih (A ++ B) hp' fun b' hb' e' he' hx => hi b' (by
      rcases List.mem_append.1 hb' with h | h
      · exact List.mem_append_left _ h
      · exact List.mem_append_right _ (List.mem_cons_of_mem _ h)) e' (List.mem_cons_of_mem _ he') hx
    have h3 := hi b (by simp) e (by simp) he.symm
    obtain ⟨e1, e2, e3⟩ := e
    rw [List.map_cons, bytes_cons, this]
    simp only at h3
    simp only [List.map_append, List.map_cons, List.sum_append, List.sum_cons, List.length_append, List.length_cons, h3,
      Nat.mul_add, Nat.mul_one]
    omega

theorem fixed_holds {cfg : FixedPool.Cfg} {s : FixedPool.State} {O L : Held} (h : FixedPool.Inv cfg s O L) :
    bytes O = s.pools.length * cfg.data ∧ O.length = s.pools.length := by
  refine ⟨?_, by rw [h.held.length_eq, List.length_map]⟩
  rw [bytes_perm h.held]
  unfold bytes
  rw [List.map_map]
  have : ((fun x => x.2) ∘ FixedPool.rng cfg) = fun _ => cfg.data := by funext p; rfl
  rw [this]
  clear h this
  induction s.pools with
  | nil => simp
  | cons x l ih => simp only [List.map_cons, List.sum_cons, List.length_cons, ih, Nat.succ_mul]; omega

/-- The strategy says what it holds. -/
def Kind.Tells (k : Kind) (Inv : k.strat.σ → Held → Held → Prop) : Prop :=
  ∀ s O U a, Inv s O U → Acct.Right a U → k.Keeps → bytes O = (k.holds s a).1 ∧ O.length = (k.holds s a).2

/-- More that is known about a strategy that has given out `U`. -/
def Kind.Extra : (k : Kind) → k.strat.σ → Held → Prop
  | .quick _ _, (s : QuickPool.State), U => bytes U ≤ QuickPool.getActualSize s
  | .dyn _ _, (s : DynPool.State), U => bytes U ≤ DynPool.getActualSize s
  | .fixed cfg, (s : FixedPool.State), U => FixedPool.getCurrentSize s = cfg.obj * U.length
  | .mono c, (s : Monotonic.State), _ => s.cap = c
  | _, _, _ => True

theorem quick_extra {al : Nat} (ha : 0 < al) {s : QuickPool.State} {O U : Held} (h : QuickPool.Inv al s O U) :
    bytes U ≤ s.actualBytes := by
  have h1 : bytes U ≤ ((U.map fun r => (r.1, roundUp64 al r.2)).map (·.2)).sum := by
    have : ∀ V : Held, (∀ r ∈ V, 0 < r.2 ∧ r.2 + al ≤ W) → bytes V ≤ ((V.map fun r => (r.1, roundUp64 al r.2)).map (·.2)).sum := by
      intro V
      induction V with
      | nil => intro _; exact Nat.le_refl _
      | cons v V ih =>
        intro hV
        have h2 := ih fun r hr => hV r (List.mem_cons_of_mem _ hr)
        have h3 := hV v (by simp)
        have h4 := roundUp64_bounds ha h3.1 h3.2
        simp only [bytes, List.map_cons, List.sum_cons] at h2 ⊢
        omega
    exact this U h.req
  have h2 := (h.live.map (·.2)).sum_nat
  rw [h2, List.map_map] at h1
  refine Nat.le_trans h1 ?_
  rw [h.actual]
  have : ∀ bs : List (List QuickPool.Chunk), ((QuickPool.usedL bs.flatten).map ((·.2) ∘ fun c => (c.data, c.size))).sum ≤
      (bs.map QuickPool.bsize).sum := by
    intro bs
    induction bs with
    | nil => exact Nat.le_refl _
    | cons b bs ih =>
      have hb : ((QuickPool.usedL b).map ((·.2) ∘ fun c => (c.data, c.size))).sum ≤ QuickPool.bsize b := by
        induction b with
        | nil => exact Nat.le_refl _
        | cons c b ih =>
          unfold QuickPool.usedL at ih ⊢
          rw [List.filter_cons, QuickPool.bsize_cons]
          split
          · simp only [List.map_cons, List.sum_cons, Function.comp] at ih ⊢; omega
          · omega
      have : QuickPool.usedL (b :: bs).flatten = QuickPool.usedL b ++ QuickPool.usedL bs.flatten := by
        unfold QuickPool.usedL
        rw [List.flatten_cons, List.filter_append]
      rw [this, List.map_append, List.sum_append, List.map_cons, List.sum_cons]
      omega
  exact this _

theorem Kind.okTells (k : Kind) {cap B : Nat} (h : k.Fits cap B) :
    ∃ Inv, k.strat.Ok (Upto cap) (Upto B) k.Solid Inv ∧ k.Tells Inv ∧ ∀ s O U, Inv s O U → k.Extra s U := by
  have hfwd : ∀ {O U : Held} {a : Acct}, O = U → a.Right U →
      bytes O = a.cur - lostBytes a.log ∧ O.length = a.count - lostCount a.log := by
    intro O U a e hr
    subst e
    have h1 := hr.cur
    have h2 := hr.count
    omega
  cases k with
  | quick cfg fuel => exact ⟨_, quick_ok h, fun s O U a hi _ _ => quick_holds hi, fun s O U hi => quick_extra h.al hi⟩
  | dyn cfg heur =>
    refine ⟨_, dyn_ok h, fun s O U a hi _ _ => ?_, fun s O U hi => ?_⟩
    · obtain ⟨q, hq, hr⟩ := hi
      have := quick_holds hq
      rw [← hr.actual, ← hr.total] at this
      exact this
    · obtain ⟨q, hq, hr⟩ := hi
      have := quick_extra h.al hq
      rw [← hr.actual] at this
      exact this
  | fixed cfg => exact ⟨_, fixed_ok h, fun s O U a hi _ _ => fixed_holds hi.inv, fun s O U hi => hi.inv.cur.trans (by rw [List.length_map])⟩
  | mixed cfg fuel =>
    refine ⟨_, mixed_ok h, fun s O U a hi _ _ => ?_, fun _ _ _ _ => trivial⟩
    obtain ⟨⟨OQ, LQ, P, hP, -⟩, -⟩ := hi
    have h1 := quick_holds hP.quick
    have h2 : bytes O = bytes OQ + (P.map fun x => bytes x.2.O).sum ∧ O.length = OQ.length + (P.map fun x => x.2.O.length).sum := by
      rw [bytes_perm hP.held, hP.held.length_eq]
      simp only [List.flatMap_cons, bytes_append, List.length_append]
      have : ∀ Q : List (MixedPool.Fixed × Client), bytes ((Q.map (·.2)).flatMap (·.O)) = (Q.map fun x => bytes x.2.O).sum ∧
          ((Q.map (·.2)).flatMap (·.O)).length = (Q.map fun x => x.2.O.length).sum := by
        intro Q
        induction Q with
        | nil => exact ⟨rfl, rfl⟩
        | cons x Q ih =>
          simp only [List.map_cons, List.flatMap_cons, bytes_append, List.length_append, List.sum_cons, ih.1, ih.2, and_self]
      rw [(this P).1, (this P).2]
      exact ⟨rfl, rfl⟩
    have h3 : (P.map fun x => bytes x.2.O).sum = (s.fixed.map fun f => FixedPool.numPools f.2 * f.1.data).sum ∧
        (P.map fun x => x.2.O.length).sum = (s.fixed.map fun f => FixedPool.numPools f.2).sum := by
      rw [hP.fixed, List.map_map, List.map_map]
      have e1 : ∀ x ∈ P, bytes x.2.O = ((fun f : MixedPool.Fixed => FixedPool.numPools f.2 * f.1.data) ∘ fun x => x.1) x :=
        fun x hx => (fixed_holds (hP.ok x hx).inv).1
      have e2 : ∀ x ∈ P, x.2.O.length = ((fun f : MixedPool.Fixed => FixedPool.numPools f.2) ∘ fun x => x.1) x :=
        fun x hx => (fixed_holds (hP.ok x hx).inv).2
      exact ⟨congrArg List.sum (List.map_congr_left e1), congrArg List.sum (List.map_congr_left e2)⟩
    rw [h2.1, h2.2, h1.1, h1.2, h3.1, h3.2]
    constructor
    · show _ = _ + QuickPool.getActualSize s.quick + _ * QuickPool.getTotalBlocks s.quick
      unfold QuickPool.getActualSize QuickPool.getTotalBlocks
      omega
    · show _ = _ + QuickPool.getTotalBlocks s.quick
      unfold QuickPool.getTotalBlocks
      omega
  | mono c =>
    refine ⟨_, mono_ok h.1 h.2, fun s O U a hi _ _ => ?_, fun s O U hi => MonoInv.capEq hi⟩
    have := MonoInv.held hi
    rw [this]
    exact ⟨by simp [bytes, Kind.holds], rfl⟩
  | limiter l => exact ⟨_, limiter_ok h, fun s O U a hi hr _ => hfwd hi.2 hr, fun _ _ _ _ => trivial⟩
  | aligned a => exact ⟨_, aligned_ok h.1 h.2, fun s O U a hi hr hk => hk.elim, fun _ _ _ _ => trivial⟩
  | slots k =>
    refine ⟨_, slots_ok h, fun s O U a hi _ _ => ?_, fun _ _ _ _ => trivial⟩
    obtain ⟨lost, hi⟩ := hi
    have h1 := hi.held
    rw [bytes_perm h1, h1.length_eq]
    unfold SlotPool.held bytes
    rw [List.map_map, List.length_map]
    exact ⟨rfl, rfl⟩
  | forward k => exact ⟨_, forward_ok h, fun s O U a hi hr hk => hfwd (hi.2 hk) hr, fun _ _ _ _ => trivial⟩

/-! ## The accounts of an arrangement -/

/-- What is built on the strategy at a place. -/
def Arr.kidsAt : (a : Arr) → a.Pos → Arr
  | .none, q => nomatch q
  | .node _ _ kids, q =>
    match (q : Option kids.Pos) with
    | Option.none => kids
    | .some q => kids.kidsAt q
  | .par a b, q =>
    match (q : a.Pos ⊕ b.Pos) with
    | .inl q => a.kidsAt q
    | .inr q => b.kidsAt q

/-- The account of the strategy at a place. -/
def Arr.acct : (a : Arr) → a.Pos → a.Accts → Acct
  | .none, q, _ => nomatch q
  | .node _ _ kids, q, ac =>
    match (q : Option kids.Pos) with
    | Option.none => Prod.fst (ac : Acct × kids.Accts)
    | .some q => kids.acct q (Prod.snd (ac : Acct × kids.Accts))
  | .par a b, q, ac =>
    match (q : a.Pos ⊕ b.Pos) with
    | .inl q => a.acct q (Prod.fst (ac : a.Accts × b.Accts))
    | .inr q => b.acct q (Prod.snd (ac : a.Accts × b.Accts))

/-- Its own state. -/
def Arr.own : (a : Arr) → (q : a.Pos) → a.sys.σ → Option (a.kindAt q).strat.σ
  | .none, q, _ => nomatch q
  | .node _ _ _, Option.none, t => NodeSt.own t
  | .node _ _ kids, .some q, t => kids.own q (NodeSt.kids t)
  | .par a _, .inl q, t => a.own q (Prod.fst t)
  | .par _ b, .inr q, t => b.own q (Prod.snd t)

/-- What the allocators directly on it hold. -/
def Arr.above : (a : Arr) → a.Pos → a.sys.σ → a.Accts → Nat × Nat
  | .none, q, _, _ => nomatch q
  | .node _ _ kids, q, t, ac =>
    match (q : Option kids.Pos) with
    | Option.none => kids.holds (NodeSt.kids t) (Prod.snd (ac : Acct × kids.Accts))
    | .some q => kids.above q (NodeSt.kids t) (Prod.snd (ac : Acct × kids.Accts))
  | .par a b, q, t, ac =>
    match (q : a.Pos ⊕ b.Pos) with
    | .inl q => a.above q (Prod.fst (t : a.sys.σ × b.sys.σ)) (Prod.fst (ac : a.Accts × b.Accts))
    | .inr q => b.above q (Prod.snd (t : a.sys.σ × b.sys.σ)) (Prod.snd (ac : a.Accts × b.Accts))

/-- What holds for an arrangement with its accounts. -/
structure Arr.StatOk (a : Arr) (B : Nat) (I : a.csys.σ → Held → Prop) : Prop where
  ok : a.csys.Ok (Upto B) I
  holds : ∀ {t ac O}, I (t, ac) O → a.Keeps → bytes O = (a.holds t ac).1 ∧ O.length = (a.holds t ac).2
  stats : ∀ {t ac O}, I (t, ac) O → ∀ q, a.built q t = true → ∃ (Ot : Held) (s : _), (a.acct q ac).Right (a.user q t ++ Ot) ∧
    a.own q t = some s ∧ (∃ U : Held, U.Perm (a.user q t ++ Ot) ∧ (a.kindAt q).Extra s U) ∧
    ((a.kindAt q).Solid → a.kidsAt q = .none → lostCount (a.acct q ac).log = 0) ∧
    ((a.kidsAt q).Keeps → bytes Ot = (a.above q t ac).1 ∧ Ot.length = (a.above q t ac).2)

/-- The invariant of a node with its account. -/
def CInv {σ τ κ : Type} (Z : Prop) (Inv : σ → Held → Held → Prop) (I : τ × κ → Held → Prop) (t : NodeSt σ τ × (Acct × κ)) (O : Held) : Prop :=
  match t.1.own with
  | none => O = [] ∧ t.1.user = [] ∧ I (t.1.kids, t.2.2) [] ∧ t.2.1 = {}
  | some s => ∃ U Ot, U.Perm (t.1.user ++ Ot) ∧ Inv s O U ∧ t.2.1.Right U ∧ I (t.1.kids, t.2.2) Ot ∧ (Z → lostCount t.2.1.log = 0)

theorem Arr.node_csys_ok {k : Kind} {cap B : Nat} {kids : Arr} {Inv : k.strat.σ → Held → Held → Prop}
    (hS : k.strat.Ok (Upto cap) (Upto B) k.Solid Inv) {I : kids.csys.σ → Held → Prop} (hT : kids.csys.Ok (Upto cap) I)
    (hn : k.Solid ∨ ∀ c t, ¬ kids.sys.can c t) : (Arr.node k cap kids).csys.Ok (Upto B) (CInv (k.Solid ∧ kids = .none) Inv I) where
  init := ⟨rfl, rfl, hT.init, rfl⟩
  good := by
    rintro ⟨⟨own, user, ks⟩, ⟨x, ka⟩⟩ O h
    cases own with
    | none =>
      obtain ⟨h1, h2, h3, -⟩ := h
      simp only at h2
      have h4 : kids.sys.live ks = [] := cov_nil (Client.Good.cover (hT.good h3))
      subst h1 h2
      show Client.Good ⟨[], [] ++ kids.sys.live ks⟩
      rw [h4]
      exact ⟨by simp, by simp, by simp, by simp⟩
    | some s =>
      obtain ⟨U, Ot, h1, h2, -, h3, -⟩ := h
      exact node_good (hS.good h2) h1 (hT.good h3)
  keep := by
    rintro c ⟨⟨own, user, ks⟩, ⟨x, ka⟩⟩ h y hy
    have hk : ∀ {c : kids.sys.Cmd}, kids.sys.can c ks → ∀ x ∈ kids.sys.keep c ks, x ∈ kids.sys.live ks :=
      fun {c} hc => hT.keep (c := c) (t := (ks, ka)) hc
    cases c with
    | dealloc p =>
      rcases List.mem_append.1 hy with hy | hy
      · exact List.mem_append_left _ (drop_sub y hy)
      · exact List.mem_append_right _ hy
    | down c =>
      rcases List.mem_append.1 hy with hy | hy
      · exact List.mem_append_left _ hy
      · exact List.mem_append_right _ (hk h.2 y hy)
    | make => exact hy
    | alloc n => exact hy
    | op o => exact hy
  run := by
    rintro c ⟨⟨own, user, ks⟩, ⟨x, ka⟩⟩ O h hc hd hr
    cases own with
    | none =>
      cases c with
      | make =>
        obtain ⟨h1, h2, h3, h0⟩ := h
        simp only at h2 h3 h0
        subst h1 h2 h0
        have h4 : kids.sys.live ks = [] := cov_nil (Client.Good.cover (hT.good h3))
        refine wpa_bind (wpa_mono (wpa_weaken hS.make (fun _ h => h) (fun _ h => h) fun q m h => keepUB_sub (K := []) ?_ h) ?_)
        · intro l hl
          have hl : l ∈ [] ++ kids.sys.live ks := hl
          rw [h4] at hl
          cases hl
        · intro r O' h5
          cases r with
          | none => exact ⟨h5, rfl, h3, rfl⟩
          | some s => exact ⟨[], [], List.Perm.refl _, h5, Acct.right_init, h3, fun _ => rfl⟩
      | alloc n => cases hc.1
      | dealloc p => cases hc.1
      | op o => cases hc
      | down c => cases hc.1
    | some s =>
      obtain ⟨U, Ot, h1, h2, ha, h3, hz⟩ := h
      simp only at h1 h3 ha hz
      have hgu := hS.good h2
      have hgt := hT.good h3
      have hdu : (user ++ Ot).Disjoint := perm_disjoint h1 hgu.disj
      have hpu : ∀ a ∈ user ++ Ot, 0 < a.2 := fun a ha => hgu.upos a (h1.mem_iff.2 ha)
      have hsub : ∀ l ∈ user ++ kids.sys.live ks, ∃ k ∈ U, Within l.1 l.2 k.1 k.2 := by
        intro l hl
        rcases List.mem_append.1 hl with hl | hl
        · exact ⟨l, h1.mem_iff.2 (List.mem_append_left _ hl), Nat.le_refl _, Nat.le_refl _⟩
        · obtain ⟨o, ho, hw⟩ := hgt.cov l hl
          exact ⟨o, h1.mem_iff.2 (List.mem_append_right _ ho), hw⟩
      cases c with
      | make => cases hc
      | alloc n =>
        refine wpa_bind (wpa_mono (wpa_weaken (hS.alloc h2 hc.2) (fun _ h => h) (fun _ h => h) fun q m h => keepUB_sub hsub h) ?_)
        rintro ⟨r, s'⟩ O' ⟨h4, h4'⟩
        refine ⟨_, Ot, record_perm h1, h4, ha.user r n, h3, fun z => ?_⟩
        have hz := hz z
        cases r with
        | none => exact hz
        | some p =>
          have hp : p ≠ 0 := fun e => h4' (congrArg some e) z.1
          simp only [Acct.user, Acct.charge, hp, if_false, lostCount]
          exact hz
      | dealloc p =>
        obtain ⟨-, n, hn⟩ := hc
        simp only at hn
        show Prog.wpa (Upto B) _ (match user.find? (fun u => u.1 = p) with
          | Option.none => .fail .ub
          | some u => (k.strat.dealloc s p u.2).bind fun r =>
              .ret (Option.none, ((⟨some r.2, Umpire.drop p user, ks⟩ : NodeSt k.strat.σ kids.sys.σ), (x.refund u.2, ka)))) O _
        cases hf : user.find? (fun u => u.1 = p) with
        | none =>
          have := List.find?_eq_none.1 hf _ hn
          simp at this
        | some u =>
          have hu := List.mem_of_find?_eq_some hf
          have hup : u.1 = p := by simpa using List.find?_some hf
          obtain ⟨u1, u2⟩ := u
          simp only at hup
          subst hup
          have hU' : (Umpire.drop u1 U).Perm (Umpire.drop u1 user ++ Ot) := by
            rw [← drop_append_left hdu hpu hu]
            exact h1.filter _
          have hmem := h1.mem_iff.2 (List.mem_append_left Ot hu)
          refine wpa_bind (wpa_mono (wpa_weaken (hS.dealloc h2 hmem) (fun _ h => h)
            (fun _ h => h) fun q m h => keepUB_sub ?_ h) ?_)
          · intro l hl
            rcases List.mem_append.1 hl with hl | hl
            · exact ⟨l, hU'.mem_iff.2 (List.mem_append_left _ hl), Nat.le_refl _, Nat.le_refl _⟩
            · obtain ⟨o, ho, hw⟩ := hgt.cov l hl
              exact ⟨o, hU'.mem_iff.2 (List.mem_append_right _ ho), hw⟩
          · rintro ⟨r, s'⟩ O' h4
            exact ⟨_, Ot, hU', h4, ha.refund hgu.disj hgu.upos hmem, h3, hz⟩
      | op o =>
        refine wpa_bind (wpa_mono (wpa_weaken (hS.op o h2) (fun _ h => h) (fun _ h => h) fun q m h => keepUB_sub hsub h) ?_)
        intro s' O' h4
        exact ⟨U, Ot, h1, h4, ha, h3, hz⟩
      | down c =>
        rcases hn with hnn | hno
        · have hS' : (countS k.strat).Ok (Upto cap) (Upto B) True fun s O U => Inv s.1 O U ∧ s.2.Right U :=
            countS_ok { hS with alloc := fun h1 h2 => wpa_mono (hS.alloc h1 h2) fun _ _ h => ⟨h.1, fun e _ => h.2 e hnn⟩ }
          have hdt : Ot.Disjoint := (List.pairwise_append.1 hdu).2.1
          have hcu : Cov U O := Client.Good.cover hgu
          have hrt : Real Ot := by
            intro o ho
            obtain ⟨-, x, hx, hw⟩ := hcu o (h1.mem_iff.2 (List.mem_append_right _ ho))
            have := hr x hx
            unfold Within at hw
            omega
          have hk := hT.keep (c := c) (t := (ks, ka)) hc.2
          have hcov : Cov (kids.sys.keep c ks) Ot := fun l hl => Client.Good.cover hgt l (hk l hl)
          refine wpa_bind (wpa_mono (through_wpa (s := (s, x)) hS' (hT.run h3 hc.2 hdt hrt) ⟨h2, ha⟩ h1 hcov hd hr) ?_)
          rintro ⟨⟨y, ⟨ks', ka'⟩⟩, ⟨s', x'⟩⟩ O' ⟨U', Ot', h4, ⟨h5, h5'⟩, h6⟩
          refine ⟨U', Ot', h4, h5, h5', h6, fun z => ?_⟩
          obtain ⟨-, z⟩ := z
          subst z
          cases c
        · exact absurd hc.2 (hno c ks)

theorem Arr.par_csys_ok {a b : Arr} {P : Nat → Prop} {I : a.csys.σ → Held → Prop} {J : b.csys.σ → Held → Prop}
    (hA : a.csys.Ok P I) (hB : b.csys.Ok P J) :
    (Arr.par a b).csys.Ok P fun t O => O.Disjoint ∧ ∃ O1 O2, O.Perm (O1 ++ O2) ∧
      I (Prod.fst (t.1 : a.sys.σ × b.sys.σ), Prod.fst (t.2 : a.Accts × b.Accts)) O1 ∧
      J (Prod.snd (t.1 : a.sys.σ × b.sys.σ), Prod.snd (t.2 : a.Accts × b.Accts)) O2 where
  init := ⟨List.Pairwise.nil, [], [], List.Perm.refl _, hA.init, hB.init⟩
  good := fun ⟨hd, _, _, hp, h1, h2⟩ => good_append (hA.good h1) (hB.good h2) hp hd
  keep := by
    rintro c ⟨⟨t1, t2⟩, ⟨x1, x2⟩⟩ h x hx
    cases c with
    | inl c =>
      rcases List.mem_append.1 hx with hx | hx
      · exact List.mem_append_left _ (hA.keep (c := c) (t := (t1, x1)) h x hx)
      · exact List.mem_append_right _ hx
    | inr c =>
      rcases List.mem_append.1 hx with hx | hx
      · exact List.mem_append_left _ hx
      · exact List.mem_append_right _ (hB.keep (c := c) (t := (t2, x2)) h x hx)
  run := by
    rintro c ⟨⟨t1, t2⟩, ⟨x1, x2⟩⟩ O ⟨hd, O1, O2, hp, h1, h2⟩ hc - hr
    have hr' : Real (O1 ++ O2) := fun o ho => hr o (hp.mem_iff.2 ho)
    have hd' := List.pairwise_append.1 (perm_disjoint hp hd)
    cases c with
    | inl c =>
      have hrun := hA.run h1 hc hd'.1 fun o ho => hr' o (List.mem_append_left _ ho)
      have := wpa_next hrun hp hd (hB.good h2).pos (Client.Good.cover (hB.good h2))
      refine wpa_bind (wpa_mono (wpa_real this hd hr) ?_)
      rintro ⟨x, ⟨a', y'⟩⟩ O' ⟨⟨O1', h3, h4⟩, h5, -⟩
      exact ⟨h5, O1', O2, h3, h4, h2⟩
    | inr c =>
      have hrun := hB.run h2 hc hd'.2.1 fun o ho => hr' o (List.mem_append_right _ ho)
      have := wpa_next hrun (hp.trans List.perm_append_comm) hd (hA.good h1).pos (Client.Good.cover (hA.good h1))
      refine wpa_bind (wpa_mono (wpa_real (wpa_weaken this (fun _ h => h) (fun _ h => h) fun _ _ h => keepUB_comm h) hd hr) ?_)
      rintro ⟨x, ⟨b', y'⟩⟩ O' ⟨⟨O2', h3, h4⟩, h5, -⟩
      exact ⟨h5, O1, O2', h3.trans List.perm_append_comm, h1, h4⟩

theorem Arr.okStat (a : Arr) {B : Nat} (h : a.Fits B) : ∃ I, a.StatOk B I := by
  induction a generalizing B with
  | none =>
    refine ⟨fun _ O => O = [], ⟨rfl, ?_, fun h => h.elim, fun _ h => h.elim⟩, ?_, fun _ q => nomatch q⟩
    · intro t O h
      have h : O = [] := h
      subst h
      exact ⟨by simp, (by intro u hu; cases hu), List.Pairwise.nil, (by intro u hu; cases hu)⟩
    · intro t ac O h _
      have h : O = [] := h
      subst h
      exact ⟨rfl, rfl⟩
  | node k cap kids ih =>
    obtain ⟨h1, h2, h3⟩ := h
    obtain ⟨Inv, hk, htell, hext⟩ := k.okTells h1
    obtain ⟨I, hI⟩ := ih h2
    refine ⟨CInv (k.Solid ∧ kids = .none) Inv I, Arr.node_csys_ok hk hI.ok (h3.imp id fun he c t => by subst he; exact id), ?_, ?_⟩
    · rintro ⟨own, user, ks⟩ ⟨x, ka⟩ O hi hkeep
      cases own with
      | none =>
        obtain ⟨rfl, -⟩ := hi
        exact ⟨rfl, rfl⟩
      | some s =>
        obtain ⟨U, Ot, h4, h5, h6, h7, -⟩ := hi
        exact htell s O U x h5 h6 hkeep
    · rintro ⟨own, user, ks⟩ ⟨x, ka⟩ O hi q hb
      cases own with
      | none =>
        cases q with
        | none => cases hb
        | some q => cases hb
      | some s =>
        obtain ⟨U, Ot, h4, h5, h6, h7, h8⟩ := hi
        cases q with
        | none => exact ⟨Ot, s, h6.perm h4, rfl, ⟨U, h4, hext s O U h5⟩, fun z1 z2 => h8 ⟨z1, z2⟩, fun hk => hI.holds h7 hk⟩
        | some q => exact hI.stats h7 q hb
  | par a b iha ihb =>
    obtain ⟨I, hA⟩ := iha h.1
    obtain ⟨J, hB⟩ := ihb h.2
    refine ⟨_, Arr.par_csys_ok hA.ok hB.ok, ?_, ?_⟩
    · rintro ⟨t1, t2⟩ ⟨x1, x2⟩ O ⟨hd, O1, O2, hp, h1, h2⟩ ⟨k1, k2⟩
      have e1 := hA.holds h1 k1
      have e2 := hB.holds h2 k2
      rw [bytes_perm hp, hp.length_eq, bytes_append, List.length_append, e1.1, e1.2, e2.1, e2.2]
      exact ⟨rfl, rfl⟩
    · rintro ⟨t1, t2⟩ ⟨x1, x2⟩ O ⟨hd, O1, O2, hp, h1, h2⟩ q hb
      cases q with
      | inl q => exact hA.stats h1 q hb
      | inr q => exact hB.stats h2 q hb

end Umpire.Nest
