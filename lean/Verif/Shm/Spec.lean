import Verif.Shm.Top
/-!
# Histories of a shared memory segment

A history is a list of calls, each by some process, which sees the segment at an
address `base` of its own.  The ledger `L` is kept from the calls and their results
alone: which names are live, where, for how many bytes, and how often they have been
allocated more than deallocated.
-/
set_option autoImplicit false
set_option linter.unusedSimpArgs false
namespace Umpire.Shm
open Umpire.Prog
open Umpire.SizeArith (shmBytes shm_bytes_partial)

/-- `offset_to_pointer` (lines 330-338) and `pointer_to_offset` (345-351) of a process
that has the segment at `base`. -/
def toPtr (base off : Nat) : Nat := if off = 0 then 0 else base + off

def toOff (base p : Nat) : Nat := if p = 0 then 0 else p - base

/-- The calls of a process (lines 181-239, 241-281, 283-302). -/
def allocateAt (base lim : Nat) (name : List Nat) (n : Nat) : M (Option Nat) := do
  let r ← allocate lim name n
  pure (r.map (toPtr base))

def deallocateAt (base lim p : Nat) : M Unit := deallocate lim (toOff base p)

def findPointerAt (base lim : Nat) (name : List Nat) : M (Option Nat) := do
  let r ← findPointer lim name
  pure (r.map (toPtr base))

/-- A live allocation: `n` is the size asked for when the name became live. -/
structure Rec where
  name : List Nat
  off : Nat
  n : Nat
  refs : Nat
deriving DecidableEq, Repr

def noteAlloc (L : List Rec) (name : List Nat) (n off : Nat) : List Rec :=
  if name ∈ L.map (·.name) then L.map fun r => if r.name = name then ⟨r.name, r.off, r.n, r.refs + 1⟩ else r
  else ⟨name, off, n, 1⟩ :: L

def noteFree (L : List Rec) (name : List Nat) : List Rec :=
  (L.map fun r => if r.name = name then ⟨r.name, r.off, r.n, r.refs - 1⟩ else r).filter fun r => r.refs ≠ 0

inductive Op where
  /-- a call of `allocate_named` and its result -/
  | alloc (base : Nat) (name : List Nat) (n : Nat) (p : Option Nat)
  /-- a call of `deallocate` with the address of the live name in the calling process -/
  | dealloc (base : Nat) (name : List Nat) (p : Nat)
  /-- a process writes to the memory it has got -/
  | write (name : List Nat)

/-- One call in the state `m` with the ledger `L`. -/
inductive Step (lim : Nat) : Op → Mem → List Rec → Mem → List Rec → Prop where
  | alloc {base : Nat} {name : List Nat} {n p : Nat} {m m' : Mem} {L : List Rec} (hb : 0 < base) (hl : Legal name n)
      (hr : ∀ r ∈ L, r.name = name → r.refs + 1 < W) (h : allocateAt base lim name n m = .ok (some p, m')) :
      Step lim (.alloc base name n (some p)) m L m' (noteAlloc L name n (p - base))
  | full {base : Nat} {name : List Nat} {n : Nat} {m m' : Mem} {L : List Rec} (hb : 0 < base) (hl : Legal name n)
      (hr : ∀ r ∈ L, r.name = name → r.refs + 1 < W) (h : allocateAt base lim name n m = .ok (none, m')) :
      Step lim (.alloc base name n none) m L m' L
  | dealloc {base : Nat} {m m' : Mem} {L : List Rec} {r : Rec} (hb : 0 < base) (hr : r ∈ L)
      (h : deallocateAt base lim (base + r.off) m = .ok ((), m')) :
      Step lim (.dealloc base r.name (base + r.off)) m L m' (noteFree L r.name)
  | write {m m' : Mem} {L : List Rec} {r : Rec} (hr : r ∈ L) (h : ∀ x, x < r.off ∨ r.off + r.n ≤ x → m' x = m x) :
      Step lim (.write r.name) m L m' L

/-- Histories, newest call first, from the creation of a segment of `S` bytes. -/
inductive Run (S lim : Nat) : List Op → Mem → List Rec → Prop where
  | init {m0 m : Mem} (h : create lim S m0 = .ok ((), m)) : Run S lim [] m []
  | step {ops : List Op} {op : Op} {m m' : Mem} {L L' : List Rec} (hr : Run S lim ops m L) (hs : Step lim op m L m' L') :
      Run S lim (op :: ops) m' L'

/-! ## The ledger and the blocks -/

def recOf (c : Chunk) : Option Rec := c.use.map fun u => ⟨u.name, c.off + 48, u.req, u.refs⟩

def recs (T : List Chunk) : List Rec := T.filterMap recOf

theorem recs_append {A B : List Chunk} : recs (A ++ B) = recs A ++ recs B := by simp [recs]

theorem recs_none {c : Chunk} {T : List Chunk} (h : c.use = none) : recs (c :: T) = recs T := by simp [recs, recOf, h]

theorem recs_some {c : Chunk} {T : List Chunk} {u : Use} (h : c.use = some u) :
    recs (c :: T) = ⟨u.name, c.off + 48, u.req, u.refs⟩ :: recs T := by simp [recs, recOf, h]

theorem recs_inUse {T T' : List Chunk} (h : inUse T = inUse T') : recs T = recs T' := by
  have key : ∀ T : List Chunk, recs T = recs (inUse T) := by
    intro T
    induction T with
    | nil => rfl
    | cons c T ih =>
      cases hc : c.use with
      | none => rw [recs_none hc, inUse_none hc, ih]
      | some u => rw [recs_some hc, inUse_some hc, recs_some hc, ih]
  rw [key T, key T', h]

theorem names_recs {T : List Chunk} : names T = (recs T).map (·.name) := by
  induction T with
  | nil => rfl
  | cons c T ih =>
    cases hc : c.use with
    | none => rw [names_none hc, recs_none hc, ih]
    | some u => rw [names_some hc, recs_some hc, ih]; rfl

theorem mem_recs {T : List Chunk} {r : Rec} :
    r ∈ recs T ↔ ∃ c ∈ T, ∃ u, c.use = some u ∧ r = ⟨u.name, c.off + 48, u.req, u.refs⟩ := by
  unfold recs recOf
  rw [List.mem_filterMap]
  constructor
  · rintro ⟨c, hc, h⟩
    obtain ⟨u, hu, he⟩ := Option.map_eq_some_iff.1 h
    exact ⟨c, hc, u, hu, he.symm⟩
  · rintro ⟨c, hc, u, hu, rfl⟩
    exact ⟨c, hc, by rw [hu]; rfl⟩

/-- What holds after every history. -/
def Good (S lim : Nat) (m : Mem) (L : List Rec) : Prop := ∃ T Us, Inv S lim m T Us ∧ L.Perm (recs T)

theorem Good.names {S lim : Nat} {m : Mem} {L : List Rec} {T : List Chunk} {Us : List Nat} (h : Inv S lim m T Us) (hp : L.Perm (recs T)) :
    (L.map (·.name)).Nodup ∧ ∀ s, s ∈ L.map (·.name) ↔ s ∈ Shm.names T := by
  have := hp.map (·.name)
  rw [← names_recs] at this
  exact ⟨this.nodup_iff.2 h.core.nd, fun s => this.mem_iff⟩

/-- Change of one record among records with different names. -/
theorem map_upd {A B : List Rec} {r : Rec} {f : Rec → Rec} (hn : ((A ++ r :: B).map (·.name)).Nodup) :
    (A ++ r :: B).map (fun x => if x.name = r.name then f x else x) = A ++ f r :: B := by
  rw [List.map_append, List.map_cons, List.nodup_append, List.nodup_cons] at hn
  obtain ⟨_, ⟨h1, _⟩, h2⟩ := hn
  rw [List.map_append, List.map_cons, if_pos rfl]
  congr 1
  · conv => rhs; rw [← List.map_id A]
    exact List.map_congr_left fun x hx => if_neg fun he => h2 x.name (List.mem_map_of_mem hx) r.name (by simp) he
  · congr 1
    conv => rhs; rw [← List.map_id B]
    exact List.map_congr_left fun x hx => if_neg fun he => h1 (List.mem_map.2 ⟨x, hx, he⟩)

theorem Inv.refs_pos {S lim : Nat} {m : Mem} {T : List Chunk} {Us : List Nat} (h : Inv S lim m T Us) {r : Rec} (hr : r ∈ recs T) :
    1 ≤ r.refs := by
  obtain ⟨c, hc, u, hu, rfl⟩ := mem_recs.1 hr
  exact ((h.core.ok c hc).use u hu).refs.1

/-- A process writes to its memory. -/
theorem Inv.user {S lim : Nat} {m m' : Mem} {T : List Chunk} {Us : List Nat} (h : Inv S lim m T Us) {c : Chunk} {u : Use} (hc : c ∈ T)
    (hu : c.use = some u) (hx : ∀ x, x < c.off + 48 ∨ c.off + 48 + u.req ≤ x → m' x = m x) : Inv S lim m' T Us := by
  have hco := h.core
  have hb := hco.off hc
  have hcU := (hco.ok c hc).use u hu
  have hroom := hcU.room
  have hrd : ∀ d ∈ T, m.rd d.off 8 = m'.rd d.off 8 := by
    intro d hd
    refine Mem.rd_congr fun x _ _ => (hx x ?_).symm
    have := hco.off hd
    rcases hco.apart hd hc with rfl | hh <;> omega
  have hlow : ∀ a, a + 8 ≤ 80 → m'.rd a 8 = m.rd a 8 := fun a ha => Mem.rd_congr fun x _ _ => hx x (by omega)
  refine ⟨⟨hco.lim, hco.big, hco.tile, ?_, ?_, hco.nd⟩, ?_, ?_, h.perm, h.adj⟩
  · intro d hd
    rcases hco.apart hd hc with rfl | hh
    · refine ⟨(hco.ok d hd).al, (hco.ok d hd).size, ?_, fun v hv => ?_⟩
      · rw [← (hco.ok d hd).hdr]; exact Mem.rd_congr fun x _ _ => hx x (by omega)
      · rw [hu] at hv
        cases hv
        refine ⟨hcU.name, hcU.req, hcU.len, hcU.fits, hcU.slack, hcU.refs, ?_, ?_, ?_, hcU.str.congr fun x _ _ => (hx x (by omega)).symm⟩
        · rw [← hcU.nameOff]; exact Mem.rd_congr fun x _ _ => hx x (by omega)
        · rw [← hcU.memOff]; exact Mem.rd_congr fun x _ _ => hx x (by omega)
        · rw [← hcU.count]; exact Mem.rd_congr fun x _ _ => hx x (by omega)
    · exact (hco.ok d hd).congr fun x _ _ => (hx x (by omega)).symm
  · rw [hlow 56 (by omega)]; exact hco.act
  · rw [hlow 64 (by omega)]
    exact h.fl.congr fun x hx' => by obtain ⟨d, hd, rfl⟩ := frees_mem hx'; exact hrd d hd
  · rw [hlow 72 (by omega)]
    exact h.ul.congr fun x hx' => by obtain ⟨d, hd, rfl⟩ := useds_mem (h.perm.mem_iff.1 hx'); exact hrd d hd

/-! ## Calls of a process -/

theorem allocateAt_ok {base lim : Nat} {name : List Nat} {n : Nat} {m m' : Mem} {r : Option Nat} (h : allocate lim name n m = .ok (r, m')) :
    allocateAt base lim name n m = .ok (r.map (toPtr base), m') := by
  unfold allocateAt
  rw [bind_run h]
  rfl

theorem findPointerAt_ok {base lim : Nat} {name : List Nat} {m m' : Mem} {r : Option Nat} (h : findPointer lim name m = .ok (r, m')) :
    findPointerAt base lim name m = .ok (r.map (toPtr base), m') := by
  unfold findPointerAt
  rw [bind_run h]
  rfl

theorem toPtr_pos {base off : Nat} (h : 0 < off) : toPtr base off = base + off := if_neg (by omega)

theorem toOff_add {base off : Nat} (h : 0 < base) : toOff base (base + off) = off := by
  unfold toOff
  rw [if_neg (by omega)]
  omega

/-- What a call of `allocate_named` does to state and ledger. -/
theorem Good.allocate {S lim : Nat} {m : Mem} {L : List Rec} {T : List Chunk} {Us : List Nat} (h : Inv S lim m T Us) (hp : L.Perm (recs T))
    {base : Nat} {name : List Nat} {n : Nat} (hl : Legal name n) (hr : ∀ r ∈ L, r.name = name → r.refs + 1 < W) :
    (∃ r ∈ L, r.name = name ∧ ∃ m' T' Us', allocateAt base lim name n m = .ok (some (base + r.off), m') ∧
      Inv S lim m' T' Us' ∧ (noteAlloc L name n r.off).Perm (recs T') ∧ Keep m m' T) ∨
    (name ∉ L.map (·.name) ∧ allocateAt base lim name n m = .ok (none, m) ∧ ∀ c ∈ T, c.use = none → c.size < need name n) ∨
    (name ∉ L.map (·.name) ∧ ∃ o m' T' Us', allocateAt base lim name n m = .ok (some (base + o), m') ∧
      Inv S lim m' T' Us' ∧ (noteAlloc L name n o).Perm (recs T') ∧ Keep m m' T) := by
  have hnn := Good.names h hp
  rcases h.allocate hl with ⟨A, c, B, u, rfl, hu, hn, hh⟩ | ⟨h1, h2, h3⟩ | ⟨h1, m', A, c, B, h2, h3, h4, h5, h6⟩
  · left
    have hrT : (⟨u.name, c.off + 48, u.req, u.refs⟩ : Rec) ∈ recs (A ++ c :: B) := mem_recs.2 ⟨c, by simp, u, hu, rfl⟩
    have hrL := hp.mem_iff.2 hrT
    obtain ⟨m', k1, k2, k3⟩ := hh (hr _ hrL hn)
    refine ⟨_, hrL, hn, m', _, _, ?_, k2, ?_, k3⟩
    · rw [allocateAt_ok k1]
      show Except.ok (some (toPtr base (c.off + 48)), m') = _
      rw [toPtr_pos (by omega)]
    · unfold noteAlloc
      rw [if_pos ((hnn.2 name).2 (mem_names.2 ⟨c, by simp, u, hu, hn⟩))]
      subst hn
      refine (hp.map _).trans ?_
      have hnd := h.core.nd
      rw [names_recs, recs_append, recs_some hu] at hnd
      rw [recs_append, recs_some hu, recs_append, recs_some (u := ⟨u.req, u.name, u.refs + 1⟩) rfl,
        map_upd (r := ⟨u.name, c.off + 48, u.req, u.refs⟩) (f := fun r => ⟨r.name, r.off, r.n, r.refs + 1⟩) hnd]
  · right; left
    refine ⟨fun hx => h1 ((hnn.2 name).1 hx), ?_, h3⟩
    rw [allocateAt_ok h2]
    rfl
  · right; right
    have hnew : name ∉ L.map (·.name) := fun hx => h1 ((hnn.2 name).1 hx)
    refine ⟨hnew, c.off + 48, m', _, _, ?_, h5, ?_, h6⟩
    · rw [allocateAt_ok h4]
      show Except.ok (some (toPtr base (c.off + 48)), m') = _
      rw [toPtr_pos (by omega)]
    · unfold noteAlloc
      rw [if_neg hnew, recs_append, recs_some h3]
      refine .trans ?_ List.perm_middle.symm
      refine .cons _ ?_
      rw [← recs_append, recs_inUse h2]
      exact hp

/-- What a call of `deallocate` does. -/
theorem Good.deallocate {S lim : Nat} {m : Mem} {L : List Rec} {T : List Chunk} {Us : List Nat} (h : Inv S lim m T Us) (hp : L.Perm (recs T))
    {base : Nat} (hb : 0 < base) {r : Rec} (hr : r ∈ L) :
    ∃ m' T' Us', deallocateAt base lim (base + r.off) m = .ok ((), m') ∧ Inv S lim m' T' Us' ∧ (noteFree L r.name).Perm (recs T') ∧
      ∀ c ∈ inUse T, (c.off + 48 ≠ r.off ∨ r.refs ≠ 1) → ∀ x, c.off + 40 ≤ x → x < c.off + c.size → m' x = m x := by
  obtain ⟨c, hc, u, hu, rfl⟩ := mem_recs.1 (hp.mem_iff.1 hr)
  obtain ⟨A, B, rfl⟩ := List.append_of_mem hc
  have hnd := h.core.nd
  rw [names_recs, recs_append, recs_some hu] at hnd
  have hpos : ∀ r ∈ recs A ++ recs B, (decide (r.refs ≠ 0)) = true := by
    intro r hr
    rw [← recs_append] at hr
    obtain ⟨d, hd, v, hv, rfl⟩ := mem_recs.1 hr
    have := ((h.core.ok d (mem_split.2 (Or.inr hd))).use v hv).refs.1
    simp only [decide_eq_true_eq]
    show v.refs ≠ 0
    omega
  have hfil : (recs A ++ recs B).filter (fun r => decide (r.refs ≠ 0)) = recs A ++ recs B := List.filter_eq_self.2 hpos
  have hfA : (recs A).filter (fun r => decide (r.refs ≠ 0)) = recs A := List.filter_eq_self.2 fun r hr => hpos r (by simp [hr])
  have hfB : (recs B).filter (fun r => decide (r.refs ≠ 0)) = recs B := List.filter_eq_self.2 fun r hr => hpos r (by simp [hr])
  have hnote : (noteFree L u.name).Perm ((recs A ++ ⟨u.name, c.off + 48, u.req, u.refs - 1⟩ :: recs B).filter fun r => r.refs ≠ 0) := by
    unfold noteFree
    refine ((hp.map _).trans (.of_eq ?_)).filter _
    rw [recs_append, recs_some hu,
        map_upd (r := ⟨u.name, c.off + 48, u.req, u.refs⟩) (f := fun r => ⟨r.name, r.off, r.n, r.refs - 1⟩) hnd]
  have hd := h.deallocate hu
  unfold deallocateAt
  rw [toOff_add hb]
  by_cases h1 : u.refs = 1
  · obtain ⟨m', T', Us', k1, k2, k3, k4⟩ := hd.1 h1
    refine ⟨m', T', Us', k1, k2, hnote.trans ?_, ?_⟩
    · rw [recs_inUse k3, recs_append, List.filter_append, List.filter_cons_of_neg (by simp [h1]), hfA, hfB]
    · rintro d hd (hne | hne) x g1 g2
      · refine k4 d ?_ x g1 g2
        obtain ⟨hd1, v, hv⟩ := mem_inUse.1 hd
        rcases mem_split.1 hd1 with rfl | hd1
        · exact absurd rfl hne
        · exact mem_inUse.2 ⟨hd1, v, hv⟩
      · exact absurd h1 hne
  · obtain ⟨m', k1, k2, k3⟩ := hd.2 h1
    have hrefs := ((h.core.ok c hc).use u hu).refs.1
    refine ⟨m', _, _, k1, k2, hnote.trans ?_, fun d hd _ x g1 g2 => k3 d hd x g1 g2⟩
    rw [recs_append, recs_some (u := ⟨u.req, u.name, u.refs - 1⟩) rfl, List.filter_append, List.filter_cons_of_pos, hfA, hfB]
    simp only [decide_eq_true_eq]
    show u.refs - 1 ≠ 0
    omega

theorem Good.step {S lim : Nat} {op : Op} {m m' : Mem} {L L' : List Rec} (h : Good S lim m L) (hs : Step lim op m L m' L') :
    Good S lim m' L' := by
  obtain ⟨T, Us, h, hp⟩ := h
  cases hs with
  | @alloc base name n p _ _ _ hb hl hr ha =>
    rcases Good.allocate (base := base) h hp hl hr with ⟨r, _, _, m1, T', Us', k1, k2, k3, _⟩ | ⟨_, k1, _⟩ | ⟨_, o, m1, T', Us', k1, k2, k3, _⟩
    · rw [ha] at k1
      cases k1
      rw [show base + r.off - base = r.off by omega]
      exact ⟨T', Us', k2, k3⟩
    · rw [ha] at k1; cases k1
    · rw [ha] at k1
      cases k1
      rw [show base + o - base = o by omega]
      exact ⟨T', Us', k2, k3⟩
  | @full base name n _ _ _ hb hl hr ha =>
    rcases Good.allocate (base := base) h hp hl hr with ⟨r, _, _, m1, T', Us', k1, k2, k3, _⟩ | ⟨_, k1, _⟩ | ⟨_, o, m1, T', Us', k1, k2, k3, _⟩
    · rw [ha] at k1; cases k1
    · rw [ha] at k1; cases k1
      exact ⟨T, Us, h, hp⟩
    · rw [ha] at k1; cases k1
  | dealloc hb hr ha =>
    obtain ⟨m1, T', Us', k1, k2, k3, _⟩ := Good.deallocate h hp hb hr
    rw [ha] at k1
    cases k1
    exact ⟨T', Us', k2, k3⟩
  | write hr hx =>
    obtain ⟨c, hc, u, hu, rfl⟩ := mem_recs.1 (hp.mem_iff.1 hr)
    exact ⟨T, Us, h.user hc hu hx, hp⟩

theorem Run.good {S lim : Nat} (h1 : 120 ≤ S) (h2 : S < AMax) (h3 : S ≤ lim) {ops : List Op} {m : Mem} {L : List Rec}
    (h : Run S lim ops m L) : Good S lim m L := by
  induction h with
  | init hc =>
    obtain ⟨m', k1, k2⟩ := Inv.create (m := _) h1 h2 h3
    rw [hc] at k1
    cases k1
    exact ⟨_, _, k2, .of_eq rfl⟩
  | step _ hs ih => exact ih.step hs

end Umpire.Shm
