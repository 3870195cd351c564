import Verif.Shm.Lemmas
/-!
# Invariant of the shared memory segment
-/
set_option autoImplicit false
set_option linter.unusedSimpArgs false
namespace Umpire.Shm
open Umpire.Prog
open Umpire.SizeArith (shmBytes shm_bytes_partial)

/-- A block in use: the size requested, the name, the references. -/
structure Use where
  req : Nat
  name : List Nat
  refs : Nat

/-- A block: where it begins, its size, and its use if it is not free. -/
structure Chunk where
  off : Nat
  size : Nat
  use : Option Use

/-- The blocks lie one after the other from `o` to `e`. -/
def Tile : Nat → List Chunk → Nat → Prop
  | o, [], e => o = e
  | o, c :: T, e => c.off = o ∧ Tile (o + c.size) T e

theorem Tile.append {o e : Nat} {A B : List Chunk} : Tile o (A ++ B) e ↔ ∃ x, Tile o A x ∧ Tile x B e := by
  induction A generalizing o with
  | nil =>
    constructor
    · intro h; exact ⟨o, rfl, h⟩
    · rintro ⟨x, rfl, h⟩; exact h
  | cons c A ih =>
    simp only [List.cons_append, Tile, ih]
    constructor
    · rintro ⟨h, x, h1, h2⟩; exact ⟨x, ⟨h, h1⟩, h2⟩
    · rintro ⟨x, ⟨h, h1⟩, h2⟩; exact ⟨h, x, h1, h2⟩

theorem Tile.le {o e : Nat} {T : List Chunk} (h : Tile o T e) : o ≤ e := by
  induction T generalizing o with
  | nil => exact Nat.le_of_eq h
  | cons c T ih => have := ih h.2; omega

theorem Tile.bounds {o e : Nat} {T : List Chunk} (h : Tile o T e) {c : Chunk} (hc : c ∈ T) :
    o ≤ c.off ∧ c.off + c.size ≤ e := by
  induction T generalizing o with
  | nil => cases hc
  | cons d T ih =>
    obtain ⟨h1, h2⟩ := h
    rcases List.mem_cons.1 hc with rfl | hc
    · have := h2.le; omega
    · have := ih h2 hc; omega

theorem Tile.pairwise {o e : Nat} {T : List Chunk} (h : Tile o T e) : T.Pairwise fun a b => a.off + a.size ≤ b.off := by
  induction T generalizing o with
  | nil => exact List.Pairwise.nil
  | cons d T ih =>
    obtain ⟨h1, h2⟩ := h
    refine List.Pairwise.cons (fun b hb => ?_) (ih h2)
    have := h2.bounds hb; omega

/-- Offsets of the free blocks and of the blocks in use. -/
def frees (T : List Chunk) : List Nat := (T.filter fun c => c.use.isNone).map (·.off)

def useds (T : List Chunk) : List Nat := (T.filter fun c => c.use.isSome).map (·.off)

def usedBytes (T : List Chunk) : Nat := ((T.filter fun c => c.use.isSome).map (·.size)).sum

def names (T : List Chunk) : List (List Nat) := (T.filterMap (·.use)).map (·.name)

theorem frees_append {A B : List Chunk} : frees (A ++ B) = frees A ++ frees B := by simp [frees]

theorem useds_append {A B : List Chunk} : useds (A ++ B) = useds A ++ useds B := by simp [useds]

theorem usedBytes_append {A B : List Chunk} : usedBytes (A ++ B) = usedBytes A + usedBytes B := by simp [usedBytes]

theorem names_append {A B : List Chunk} : names (A ++ B) = names A ++ names B := by simp [names]

theorem frees_none {c : Chunk} {T : List Chunk} (h : c.use = none) : frees (c :: T) = c.off :: frees T := by simp [frees, h]

theorem useds_none {c : Chunk} {T : List Chunk} (h : c.use = none) : useds (c :: T) = useds T := by simp [useds, h]

theorem usedBytes_none {c : Chunk} {T : List Chunk} (h : c.use = none) : usedBytes (c :: T) = usedBytes T := by simp [usedBytes, h]

theorem names_none {c : Chunk} {T : List Chunk} (h : c.use = none) : names (c :: T) = names T := by simp [names, h]

theorem frees_some {c : Chunk} {T : List Chunk} {u : Use} (h : c.use = some u) : frees (c :: T) = frees T := by simp [frees, h]

theorem useds_some {c : Chunk} {T : List Chunk} {u : Use} (h : c.use = some u) : useds (c :: T) = c.off :: useds T := by simp [useds, h]

theorem usedBytes_some {c : Chunk} {T : List Chunk} {u : Use} (h : c.use = some u) :
    usedBytes (c :: T) = c.size + usedBytes T := by simp [usedBytes, h]

theorem names_some {c : Chunk} {T : List Chunk} {u : Use} (h : c.use = some u) : names (c :: T) = u.name :: names T := by simp [names, h]

/-- No two free blocks next to each other. -/
def NoAdj : List Chunk → Prop
  | [] => True
  | [_] => True
  | a :: b :: T => ¬ (a.use = none ∧ b.use = none) ∧ NoAdj (b :: T)

theorem NoAdj.tail {c : Chunk} {T : List Chunk} (h : NoAdj (c :: T)) : NoAdj T := by
  cases T with
  | nil => trivial
  | cons d T => exact h.2

theorem NoAdj.left {A B : List Chunk} (h : NoAdj (A ++ B)) : NoAdj A := by
  induction A with
  | nil => trivial
  | cons c A ih =>
    cases A with
    | nil => trivial
    | cons d A => exact ⟨h.1, ih h.2⟩

theorem NoAdj.right {A B : List Chunk} (h : NoAdj (A ++ B)) : NoAdj B := by
  induction A with
  | nil => exact h
  | cons c A ih => exact ih h.tail

/-- A block in use separates. -/
theorem NoAdj.join {A B : List Chunk} {c : Chunk} (hA : NoAdj A) (hB : NoAdj B) (hc : c.use ≠ none) : NoAdj (A ++ c :: B) := by
  induction A with
  | nil =>
    cases B with
    | nil => trivial
    | cons d B => exact ⟨fun h => hc h.1, hB⟩
  | cons a A ih =>
    cases A with
    | nil => exact ⟨fun h => hc h.2, ih trivial⟩
    | cons d A => exact ⟨hA.1, ih hA.2⟩

/-- A free block between blocks that are not free. -/
theorem NoAdj.free {A B : List Chunk} {c : Chunk} (hA : NoAdj A) (hB : NoAdj B)
    (h1 : ∀ d, A.getLast? = some d → d.use ≠ none) (h2 : ∀ d, B.head? = some d → d.use ≠ none) : NoAdj (A ++ c :: B) := by
  induction A with
  | nil =>
    cases B with
    | nil => trivial
    | cons d B => exact ⟨fun h => h2 d rfl h.2, hB⟩
  | cons a A ih =>
    cases A with
    | nil => exact ⟨fun h => h1 a rfl h.1, ih trivial (by simp)⟩
    | cons d A => exact ⟨hA.1, ih hA.2 (by rw [List.getLast?_cons_cons] at h1; exact h1)⟩

/-- The neighbours of a free block are not free. -/
theorem NoAdj.around {A B : List Chunk} {c : Chunk} (h : NoAdj (A ++ c :: B)) (hc : c.use = none) :
    (∀ d, A.getLast? = some d → d.use ≠ none) ∧ ∀ d, B.head? = some d → d.use ≠ none := by
  constructor
  · intro d hd
    rcases List.eq_nil_or_concat A with rfl | ⟨A', e, rfl⟩
    · simp at hd
    · simp at hd
      subst hd
      have h' : NoAdj (A' ++ (e :: c :: B)) := by simpa using h
      exact fun he => h'.right.1 ⟨he, hc⟩
  · intro d hd
    cases B with
    | nil => simp at hd
    | cons e B =>
      simp at hd
      subst hd
      exact fun he => h.right.1 ⟨hc, he⟩

/-! ## Contents of the blocks -/

structure UseOk (m : Mem) (c : Chunk) (u : Use) : Prop where
  name : NameOk u.name
  req : u.req + 16 < W
  len : u.name.length + 17 < W
  fits : 48 + shmBytes u.req + shmBytes (u.name.length + 1) ≤ c.size
  slack : c.size < 48 + shmBytes u.req + shmBytes (u.name.length + 1) + 40
  refs : 1 ≤ u.refs ∧ u.refs < W
  nameOff : m.rd (c.off + 8) 8 = c.off + 48 + shmBytes u.req
  memOff : m.rd (c.off + 16) 8 = c.off + 48
  count : m.rd (c.off + 32) 8 = u.refs
  str : StrAt m (c.off + 48 + shmBytes u.req) u.name

structure COk (m : Mem) (c : Chunk) : Prop where
  al : 16 ∣ c.off
  size : 40 ≤ c.size
  hdr : m.rd (c.off + 24) 8 = c.size
  use : ∀ u, c.use = some u → UseOk m c u

theorem UseOk.room {m : Mem} {c : Chunk} {u : Use} (h : UseOk m c u) :
    u.req < shmBytes u.req ∧ 48 + shmBytes u.req + u.name.length + 1 < c.size := by
  have h1 := (shm_bytes_partial h.req).2.1
  have h2 := (shm_bytes_partial (n := u.name.length + 1) (by have := h.len; omega)).2.1
  have := h.fits
  omega

theorem COk.congr {m m' : Mem} {c : Chunk} (hc : COk m c) (h : ∀ x, c.off + 8 ≤ x → x < c.off + c.size → m x = m' x) : COk m' c := by
  have hs := hc.size
  refine ⟨hc.al, hs, ?_, fun u hu => ?_⟩
  · rw [← hc.hdr]; exact Mem.rd_congr fun x _ _ => (h x (by omega) (by omega)).symm
  · have hu := hc.use u hu
    have hr := hu.room
    refine ⟨hu.name, hu.req, hu.len, hu.fits, hu.slack, hu.refs, ?_, ?_, ?_, hu.str.congr fun x _ _ => h x (by omega) (by omega)⟩
    · rw [← hu.nameOff]; exact Mem.rd_congr fun x _ _ => (h x (by omega) (by omega)).symm
    · rw [← hu.memOff]; exact Mem.rd_congr fun x _ _ => (h x (by omega) (by omega)).symm
    · rw [← hu.count]; exact Mem.rd_congr fun x _ _ => (h x (by omega) (by omega)).symm

/-- Shape of the segment. -/
structure Core (S lim : Nat) (m : Mem) (T : List Chunk) : Prop where
  lim : S ≤ lim
  big : 120 ≤ S ∧ S < AMax
  tile : Tile 80 T S
  ok : ∀ c ∈ T, COk m c
  act : m.rd 56 8 = 80 + usedBytes T
  nd : (names T).Nodup

structure Inv (S lim : Nat) (m : Mem) (T : List Chunk) (Us : List Nat) : Prop where
  core : Core S lim m T
  fl : Links m (m.rd 64 8) (frees T) 0
  ul : Links m (m.rd 72 8) Us 0
  perm : Us.Perm (useds T)
  adj : NoAdj T

/-- As `Inv`, but the block `c` is in neither list. -/
structure Mid (S lim : Nat) (m : Mem) (A : List Chunk) (c : Chunk) (B : List Chunk) (Us : List Nat) : Prop where
  core : Core S lim m (A ++ c :: B)
  none : c.use = none
  fl : Links m (m.rd 64 8) (frees A ++ frees B) 0
  ul : Links m (m.rd 72 8) Us 0
  perm : Us.Perm (useds (A ++ c :: B))
  adjA : NoAdj A
  adjB : NoAdj B

/-- Two blocks are the same or apart. -/
theorem Tile.apart {o e : Nat} {T : List Chunk} (h : Tile o T e) {c d : Chunk} (hc : c ∈ T) (hd : d ∈ T) :
    c = d ∨ c.off + c.size ≤ d.off ∨ d.off + d.size ≤ c.off := by
  rcases List.mem_iff_getElem.1 hc with ⟨i, hi, rfl⟩
  rcases List.mem_iff_getElem.1 hd with ⟨j, hj, rfl⟩
  have hp := List.pairwise_iff_getElem.1 h.pairwise
  rcases Nat.lt_trichotomy i j with hij | rfl | hij
  · exact Or.inr (Or.inl (hp i j hi hj hij))
  · exact Or.inl rfl
  · exact Or.inr (Or.inr (hp j i hj hi hij))

theorem mem_frees {T : List Chunk} {x : Nat} : x ∈ frees T ↔ ∃ c ∈ T, c.use = none ∧ c.off = x := by
  simp [frees]
  constructor
  · rintro ⟨c, ⟨h1, h2⟩, h3⟩; exact ⟨c, h1, h2, h3⟩
  · rintro ⟨c, h1, h2, h3⟩; exact ⟨c, ⟨h1, h2⟩, h3⟩

theorem mem_useds {T : List Chunk} {x : Nat} : x ∈ useds T ↔ ∃ c ∈ T, ∃ u, c.use = some u ∧ c.off = x := by
  simp [useds, Option.isSome_iff_exists]
  constructor
  · rintro ⟨c, ⟨h1, u, h2⟩, h3⟩; exact ⟨c, h1, ⟨u, h2⟩, h3⟩
  · rintro ⟨c, h1, ⟨u, h2⟩, h3⟩; exact ⟨c, ⟨h1, u, h2⟩, h3⟩

theorem Core.off {S lim : Nat} {m : Mem} {T : List Chunk} (h : Core S lim m T) {c : Chunk} (hc : c ∈ T) :
    80 ≤ c.off ∧ c.off + c.size ≤ S ∧ 40 ≤ c.size ∧ S ≤ lim ∧ S < AMax := by
  have := h.tile.bounds hc
  exact ⟨this.1, this.2, (h.ok c hc).size, h.lim, h.big.2⟩

theorem Core.offs_nodup {S lim : Nat} {m : Mem} {T : List Chunk} (h : Core S lim m T) : (T.map (·.off)).Nodup := by
  unfold List.Nodup
  rw [List.pairwise_map]
  refine h.tile.pairwise.imp_of_mem ?_
  intro a b ha _ hab
  have := (h.ok a ha).size
  omega

theorem Core.frees_nodup {S lim : Nat} {m : Mem} {T : List Chunk} (h : Core S lim m T) : (frees T).Nodup :=
  List.Sublist.nodup (List.Sublist.map _ List.filter_sublist) h.offs_nodup

theorem Core.useds_nodup {S lim : Nat} {m : Mem} {T : List Chunk} (h : Core S lim m T) : (useds T).Nodup :=
  List.Sublist.nodup (List.Sublist.map _ List.filter_sublist) h.offs_nodup

theorem Core.apart {S lim : Nat} {m : Mem} {T : List Chunk} (h : Core S lim m T) {c d : Chunk} (hc : c ∈ T) (hd : d ∈ T) :
    c = d ∨ c.off + c.size ≤ d.off ∨ d.off + d.size ≤ c.off :=
  h.tile.apart hc hd

/-- The number of blocks is less than the fuel. -/
theorem Core.count {S lim : Nat} {m : Mem} {T : List Chunk} (h : Core S lim m T) : T.length < lim + 1 := by
  have h1 := h.tile
  have h2 := h.lim
  have h3 : ∀ c ∈ T, 1 ≤ c.size := fun c hc => by have := (h.ok c hc).size; omega
  have key : ∀ (T : List Chunk) (o : Nat), Tile o T S → (∀ c ∈ T, 1 ≤ c.size) → o + T.length ≤ S := by
    intro T
    induction T with
    | nil => intro o h _; exact Nat.le_of_eq h
    | cons c T ih =>
      intro o h h3
      have := ih _ h.2 fun d hd => h3 d (by simp [hd])
      have := h3 c (by simp)
      simp only [List.length_cons]
      omega
  have := key T 80 h1 h3
  omega

end Umpire.Shm
