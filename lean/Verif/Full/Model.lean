import Verif.Whole.Sim
import Verif.Threads.Sound
/-!
# The whole library called by several threads

`Verif.Threads` lets calls of the facade interleave, with strategies that answer a request
in one step and are anything that gives out memory nobody has.  Here the strategies are
those of `Verif.Nest`, and their requests take time: a request begins, calls the memory
resources one after the other, and ends; in between other threads go on.

Strategies come in groups: a group is what is built on one resource, or one of several
independent parts of that.  A group carries out one request at a time; that is what a
`ThreadSafeAllocator` around a pool does (C37), or a lock of the client.  Different groups
work at the same time.  The memory resources themselves are thread safe (`malloc`).  The
pool for zero-byte requests is a group of its own; the code does not lock it
(`zero_race_counterexample`, C38), here it is taken to be locked.

Construction of strategies, `release` and `coalesce` are requests too, which belong to no
thread.

Simplifications: those of `Verif.Threads` and `Verif.Whole`; `::realloc` is left out, no
thread gets there (C66).
-/
set_option autoImplicit false
namespace Umpire.Full
open Umpire.Prog Umpire.Nest Umpire.Judy Umpire.Mgr Umpire.Whole
open Umpire.Thr (Act CP Call code after set)

/-- What a group is asked to do: a request of a user of the strategy at `q`, or construction,
`release`, `coalesce`. -/
inductive Task (a : Arr) where
  | use (q : a.Pos) (u : Use)
  | other (o : a.sys.Cmd)

def Task.cmd {a : Arr} : Task a → a.sys.Cmd
  | .use q u => a.cmd q u
  | .other o => o

/-- The allocations of users that stay live: all but the one being handed back. -/
def Task.stay {a : Arr} : Task a → Held → Held
  | .use _ (.dealloc p), U => Umpire.drop p U
  | _, U => U

/-- A request that is being carried out: for which thread, what, and what is left to do. -/
structure Job (T : Type) (a : Arr) where
  who : Option T
  task : Task a
  todo : Prog (Option Nat × a.sys.σ)

/-- The allocation map, the statistics and the blocks of the records as in `Thr.Sh`; the
strategies, the memory and the bytes; the requests in progress; the threads and the ledger of
the clients as in `Thr.MS`. -/
structure MS (L : Lay) (T : Type) where
  am : AMap
  st : Nat → Stat
  cell : Nat → Rec
  top : Nat → List Nat
  S : St L
  job : ∀ r, Option (Job T (L.arr r))
  thr : T → Option (Call × CP Nat)
  own : T → List Rec
  box : List Rec

variable {L : Lay} {T : Type}

def updJ (f : ∀ r, Option (Job T (L.arr r))) (r : Nat) (j : Option (Job T (L.arr r))) : ∀ k, Option (Job T (L.arr k)) :=
  fun k => if h : k = r then h ▸ j else f k

/-- The allocations of the users of a strategy; one that is being handed back is no
longer live. -/
def MS.live (M : MS L T) (x : Σ r, (L.arr r).Pos) : Held :=
  match M.job x.1 with
  | some j => j.task.stay (M.S.user x)
  | none => M.S.user x

/-- Strategies write nothing into the allocations of users. -/
def MS.Keeps (M : MS L T) (m : Nat → Nat) : Prop := ∀ x, ∀ u ∈ M.live x, ∀ a, u.1 ≤ a → a < u.1 + u.2 → m a = M.S.mem a

/-- Actions other than requests to strategies, as in `Thr.Does`. -/
inductive Local : (a : Act) → a.Ans → MS L T → MS L T → Prop where
  | zeroQ {p M} : M.job 0 = none → Local (.zeroQ p) (M.S.fromZero p) M M
  | cpy {d s n M} : Local (.cpy d s n) () M { M with S := ⟨M.S.f, M.S.H, copied M.S.mem d s n⟩ }
  | fill {p v n M} : Local (.fill p v n) () M { M with S := ⟨M.S.f, M.S.H, filled M.S.mem p v n⟩ }
  | stat {s f M} : Local (.stat s f) () M { M with st := fun t => if t = s then f (M.st t) else M.st t }
  | put {p r b M} : (∀ q, b ∉ M.top q) →
      Local (.put p r) () M { M with am := M.am.insert p r, cell := fun i => if i = b then r else M.cell i, top := fun q => if q = p then b :: M.top q else M.top q }
  | pullOk {p a r M} : M.am.remove p = .ok a r →
      Local (.pull p) (some r) M { M with am := a, top := fun q => if q = p then (M.top q).tail else M.top q }
  | pullNone {p a M} : M.am.remove p = .throws a → Local (.pull p) none M { M with am := a }
  | seekOk {p r M} : (M.am.findRecord p).2 = some r →
      Local (.seek p) (some (r, (M.top r.ptr).headD 0)) M { M with am := (M.am.findRecord p).1 }
  | seekNone {p M} : (M.am.findRecord p).2 = none → Local (.seek p) none M { M with am := (M.am.findRecord p).1 }
  | look {h M} : Local (.look h) (M.cell h.2) M M
  | peek {h M} : Local (.peek h) (M.cell h.2) M M

section
variable [DecidableEq T]

/-- A step of a thread: as in `Thr.Step`; in addition it begins a request (`ask`, `hand`) when
the group is free, and goes on when the request is done (`asked`, `handed`).  A strategy that
has not been constructed cannot be asked (`idle`); in C++ there is no `Allocator` for it. -/
inductive Step (c : Mgr.Cfg) (Pre : List Rec → Call → Prop) : T → MS L T → MS L T → Prop where
  | start {t cl M} : M.thr t = none → Pre (M.own t) cl → Step c Pre t M { M with thr := set M.thr t (some (cl, code c cl)) }
  | ret {t cl o M} : M.thr t = some (cl, .ret o) →
      Step c Pre t M { M with thr := set M.thr t none, own := set M.own t (after (M.own t) cl o) }
  | give {t r M} : M.thr t = none → r ∈ M.own t →
      Step c Pre t M { M with own := set M.own t ((M.own t).filter fun x => decide (x ≠ r)), box := r :: M.box }
  | take {t r M} : M.thr t = none → r ∈ M.box →
      Step c Pre t M { M with own := set M.own t (r :: M.own t), box := M.box.filter fun x => decide (x ≠ r) }
  | write {t r m M} : M.thr t = none → r ∈ M.own t → (∀ q, ¬(r.ptr ≤ q ∧ q < r.ptr + r.size) → m q = M.S.mem q) →
      Step c Pre t M { M with S := ⟨M.S.f, M.S.H, m⟩ }
  | act {t cl a k x M M'} : M.thr t = some (cl, .act a k) → Local a x M M' → Step c Pre t M { M' with thr := set M'.thr t (some (cl, k x)) }
  | idle {t cl s n k M} : M.thr t = some (cl, .act (.ask s n) k) → (∀ x, L.place s = some x → M.job x.1 = none ∧ M.S.built x = false) →
      Step c Pre t M { M with thr := set M.thr t (some (cl, k none)) }
  | ask {t cl s n k r q M} : M.thr t = some (cl, .act (.ask s n) k) → L.place s = some ⟨r, q⟩ → M.job r = none → M.S.can ⟨r, q⟩ (.alloc n) →
      Step c Pre t M { M with job := updJ M.job r (some ⟨some t, .use q (.alloc n), M.S.run ⟨r, q⟩ (.alloc n)⟩) }
  | asked {t cl s n k r q v u m M} : M.thr t = some (cl, .act (.ask s n) k) → M.job r = some ⟨some t, .use q (.alloc n), .ret (v, u)⟩ → M.Keeps m →
      Step c Pre t M { M with S := M.S.set r u M.S.H m, job := updJ M.job r none, thr := set M.thr t (some (cl, k v)) }
  | hand {t cl s p n k r q M} : M.thr t = some (cl, .act (.hand s p (some n)) k) → L.place s = some ⟨r, q⟩ → M.job r = none →
      (p, n) ∈ M.S.user ⟨r, q⟩ → M.S.can ⟨r, q⟩ (.dealloc p) →
      Step c Pre t M { M with job := updJ M.job r (some ⟨some t, .use q (.dealloc p), M.S.run ⟨r, q⟩ (.dealloc p)⟩) }
  | handed {t cl s p n k r q v u m M} : M.thr t = some (cl, .act (.hand s p n) k) → M.job r = some ⟨some t, .use q (.dealloc p), .ret (v, u)⟩ → M.Keeps m →
      Step c Pre t M { M with S := M.S.set r u M.S.H m, job := updJ M.job r none, thr := set M.thr t (some (cl, k ())) }

/-- A step of a group: the next call of the request in progress to a memory resource; or
maintenance begins, or ends. -/
inductive Work : Nat → MS L T → MS L T → Prop where
  | grow {r w k n c p m M} : M.job r = some ⟨w, k, .alloc n c⟩ → FreshAll p n M.S.H → M.Keeps m →
      Work r M { M with S := ⟨M.S.f, put M.S.H r ((p, n) :: M.S.H r), m⟩, job := updJ M.job r (some ⟨w, k, c (some p)⟩) }
  | refuse {r w k n c m M} : M.job r = some ⟨w, k, .alloc n c⟩ → M.Keeps m →
      Work r M { M with S := ⟨M.S.f, M.S.H, m⟩, job := updJ M.job r (some ⟨w, k, c none⟩) }
  | shrink {r w k p n c m M} : M.job r = some ⟨w, k, .dealloc p n c⟩ → M.Keeps m →
      Work r M { M with S := ⟨M.S.f, put M.S.H r (Umpire.drop p (M.S.H r)), m⟩, job := updJ M.job r (some ⟨w, k, c⟩) }
  | begin {r o M} : M.job r = none → (L.arr r).req o = .other → (L.arr r).sys.can o (M.S.f r) →
      Work r M { M with job := updJ M.job r (some ⟨none, .other o, (L.arr r).sys.run o (M.S.f r)⟩) }
  | done {r o v u m M} : M.job r = some ⟨none, .other o, .ret (v, u)⟩ → M.Keeps m →
      Work r M { M with S := M.S.set r u M.S.H m, job := updJ M.job r none }

/-- Nothing constructed, no allocations, no calls. -/
def MS.new (L : Lay) (T : Type) : MS L T :=
  { am := AMap.new, st := fun _ => Stat.new, cell := fun _ => ⟨0, 0, 0⟩, top := fun _ => [], S := St.init L fun _ => 0, job := fun _ => none,
    thr := fun _ => none, own := fun _ => [], box := [] }

inductive Reach (c : Mgr.Cfg) (Pre : List Rec → Call → Prop) : MS L T → Prop where
  | init : Reach c Pre (MS.new L T)
  | step {M M' t} : Reach c Pre M → Step c Pre t M M' → Reach c Pre M'
  | work {M M' r} : Reach c Pre M → Work r M M' → Reach c Pre M'
end

/-- `[p, p+n)` is in a live allocation of a user. -/
def MS.Usable (M : MS L T) (p n : Nat) : Prop := ∃ s x, s ≠ zero ∧ L.place s = some x ∧ ∃ u ∈ M.live x, Within p n u.1 u.2

/-- The thread is about to do something undefined: it asks a strategy for a size that it
cannot handle; hands it memory that its users do not have, or with another size; touches
memory that is no user's; reads a record that has been removed. -/
def MS.Bad (M : MS L T) (t : T) : Act → Prop
  | .ask s n => ∃ x, L.place s = some x ∧ M.job x.1 = none ∧ M.S.built x = true ∧ ¬M.S.can x (.alloc n)
  | .hand s p n => (∀ r j, M.job r = some j → j.who ≠ some t) ∧
      ¬∃ x m, L.place s = some x ∧ n = some m ∧ (p, m) ∈ M.live x ∧ (M.job x.1 = none → M.S.can x (.dealloc p))
  | .regrow _ _ _ => True
  | .zeroQ _ => False
  | .cpy d s n => ¬(n = 0 ∨ (M.Usable d n ∧ M.Usable s n ∧ Disj d n s n))
  | .fill p _ n => ¬(n = 0 ∨ M.Usable p n)
  | .stat _ _ => False
  | .put _ _ => False
  | .pull p => M.am.remove p = .ub
  | .seek _ => False
  | .look h => h.2 ∉ M.top h.1.ptr
  | .peek _ => True

/-- What a group is doing is undefined: it hands back to the resource what it does not hold. -/
def MS.Wrong (M : MS L T) (r : Nat) : Prop :=
  ∃ j, M.job r = some j ∧ (j.todo = .fail .ub ∨ ∃ p n c, j.todo = .dealloc p n c ∧ (p, n) ∉ M.S.H r)

end Umpire.Full
