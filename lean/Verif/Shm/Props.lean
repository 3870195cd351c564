import Verif.Shm.Spec
/-!
# Properties of the shared memory resource (C39, C40)
-/
set_option autoImplicit false
set_option linter.unusedSimpArgs false
namespace Umpire.Shm
open Umpire.Prog
open Umpire.SizeArith (shmBytes shm_bytes_partial)

/-! ## Specification -/

/-- The bytes that belong to a live allocation, including its header and its name: from
`off - 48`, at least `need` of them. -/
def Rec.lo (r : Rec) : Nat := r.off - 48

def Rec.hi (r : Rec) : Nat := r.off - 48 + need r.name r.n

/-- How often the live name has been allocated more than deallocated. -/
def refsOf (L : List Rec) (name : List Nat) : Nat := ((L.filter fun r => r.name = name).map (·.refs)).sum

/-- Successful allocations of a name in a history. -/
def allocs (name : List Nat) : List Op → Nat
  | [] => 0
  | .alloc _ s _ (some _) :: ops => (if s = name then 1 else 0) + allocs name ops
  | _ :: ops => allocs name ops

def deallocs (name : List Nat) : List Op → Nat
  | [] => 0
  | .dealloc _ s _ :: ops => (if s = name then 1 else 0) + deallocs name ops
  | _ :: ops => deallocs name ops

/-- The list of free blocks in the segment: offset and size of each. -/
def walk (lim : Nat) : Nat → Nat → M (List (Nat × Nat))
  | 0, _ => fail .diverge
  | fuel + 1, o =>
    if o = 0 then pure []
    else do
      let s ← get lim o 24
      let nx ← get lim o 0
      let l ← walk lim fuel nx
      pure ((o, s) :: l)

/-! ## Lemmas -/

theorem Inv.extent {S lim : Nat} {m : Mem} {T : List Chunk} {Us : List Nat} (h : Inv S lim m T Us) {c : Chunk} {u : Use} (hc : c ∈ T)
    (hu : c.use = some u) : need u.name u.req ≤ c.size ∧ c.size < need u.name u.req + 40 := by
  have hU := (h.core.ok c hc).use u hu
  have h1 := hU.req
  have h2 := hU.len
  have e1 : shmBytes u.req = (u.req + 16) / 16 * 16 := shmBytes_eq h1
  have e2 : shmBytes (u.name.length + 1) = (u.name.length + 17) / 16 * 16 := shmBytes_eq (by omega)
  have h3 := hU.fits
  have h4 := hU.slack
  rw [e1, e2] at h3 h4
  exact ⟨h3, h4⟩

theorem window {o e a k : Nat} {T : List Chunk} (ht : Tile o T e) (hn : NoAdj T) (ho : o ≤ a) (he : a + k ≤ e) (hk : 0 < k)
    (hs : ∀ c ∈ T, 0 < c.size) (hu : ∀ c ∈ T, c.use ≠ none → c.off + c.size ≤ a ∨ a + k ≤ c.off) :
    ∃ c ∈ T, c.use = none ∧ k ≤ c.size := by
  induction T generalizing o with
  | nil => have : o = e := ht; omega
  | cons c T ih =>
    obtain ⟨h1, h2⟩ := ht
    by_cases hle : c.off + c.size ≤ a
    · obtain ⟨d, hd, hh⟩ := ih h2 hn.tail (by omega) (fun d hd => hs d (by simp [hd])) (fun d hd => hu d (by simp [hd]))
      exact ⟨d, by simp [hd], hh⟩
    · have hcn : c.use = none := by
        cases hc : c.use with
        | none => rfl
        | some u =>
          have := hu c (by simp) (by simp [hc])
          omega
      by_cases hge : a + k ≤ c.off + c.size
      · exact ⟨c, by simp, hcn, by omega⟩
      · cases T with
        | nil => have : o + c.size = e := h2; omega
        | cons d T =>
          obtain ⟨h3, _⟩ := h2
          have hdn : d.use ≠ none := fun hd => hn.1 ⟨hcn, hd⟩
          have := hu d (by simp) hdn
          have := hs d (by simp)
          omega

theorem refsOf_split {A B : List Rec} {r : Rec} {name : List Nat} :
    refsOf (A ++ r :: B) name = refsOf A name + (if r.name = name then r.refs else 0) + refsOf B name := by
  unfold refsOf
  by_cases h : r.name = name
  · simp [List.filter_cons, h, Nat.add_assoc]
  · simp [List.filter_cons, h]

theorem refsOf_filter {L : List Rec} {name : List Nat} : refsOf (L.filter fun r => r.refs ≠ 0) name = refsOf L name := by
  induction L with
  | nil => rfl
  | cons r L ih =>
    have h1 := refsOf_split (A := []) (r := r) (B := L) (name := name)
    have h2 := refsOf_split (A := []) (r := r) (B := L.filter fun r => r.refs ≠ 0) (name := name)
    have h0 : refsOf [] name = 0 := rfl
    rw [List.nil_append] at h1 h2
    by_cases h : r.refs = 0
    · rw [List.filter_cons_of_neg (by simp [h]), ih, h1, h0, h]; simp
    · rw [List.filter_cons_of_pos (by simp [h]), h2, h1, ih]

theorem refsOf_alloc {L : List Rec} {name s : List Nat} {n o : Nat} (hn : (L.map (·.name)).Nodup) :
    refsOf (noteAlloc L name n o) s = (if name = s then 1 else 0) + refsOf L s := by
  unfold noteAlloc
  by_cases h : name ∈ L.map (·.name)
  · rw [if_pos h]
    obtain ⟨r, hr, rfl⟩ := List.mem_map.1 h
    obtain ⟨A, B, rfl⟩ := List.append_of_mem hr
    rw [map_upd (f := fun r => ⟨r.name, r.off, r.n, r.refs + 1⟩) hn, refsOf_split, refsOf_split]
    show refsOf A s + (if r.name = s then r.refs + 1 else 0) + refsOf B s = _
    by_cases hs : r.name = s
    · simp only [hs, if_true]; omega
    · simp only [hs, if_false]; omega
  · rw [if_neg h]
    have := refsOf_split (A := []) (r := ⟨name, o, n, 1⟩) (B := L) (name := s)
    rw [List.nil_append] at this
    rw [this]
    show 0 + (if name = s then 1 else 0) + refsOf L s = _
    omega

theorem refsOf_free {L : List Rec} {r : Rec} {s : List Nat} (hn : (L.map (·.name)).Nodup) (hr : r ∈ L) (hp : 1 ≤ r.refs) :
    refsOf (noteFree L r.name) s + (if r.name = s then 1 else 0) = refsOf L s := by
  unfold noteFree
  rw [refsOf_filter]
  obtain ⟨A, B, rfl⟩ := List.append_of_mem hr
  rw [map_upd (f := fun r => ⟨r.name, r.off, r.n, r.refs - 1⟩) hn, refsOf_split, refsOf_split]
  show refsOf A s + (if r.name = s then r.refs - 1 else 0) + refsOf B s + _ = _
  by_cases hs : r.name = s
  · simp only [hs, if_true]; omega
  · simp only [hs, if_false]; omega

theorem refsOf_pos {L : List Rec} {s : List Nat} (hp : ∀ r ∈ L, 1 ≤ r.refs) : refsOf L s = 0 ↔ s ∉ L.map (·.name) := by
  induction L with
  | nil => simp [refsOf]
  | cons r L ih =>
    have h1 := refsOf_split (A := []) (r := r) (B := L) (name := s)
    have h0 : refsOf [] s = 0 := rfl
    rw [List.nil_append, h0] at h1
    rw [h1]
    have hi := ih fun r hr => hp r (by simp [hr])
    have hq := hp r (by simp)
    by_cases hs : r.name = s
    · rw [if_pos hs, List.map_cons, List.mem_cons]
      exact ⟨fun h => by omega, fun h => absurd (Or.inl hs.symm) h⟩
    · rw [if_neg hs, List.map_cons, List.mem_cons]
      constructor
      · intro h hh
        rcases hh with hh | hh
        · exact hs hh.symm
        · exact hi.1 (by omega) hh
      · intro h
        have := hi.2 fun hh => h (Or.inr hh)
        omega

section
variable {S lim : Nat} (h1 : 120 ≤ S) (h2 : S < AMax) (h3 : S ≤ lim) {ops : List Op} {m : Mem} {L : List Rec}
include h1 h2 h3

/-! ## C39 -/

/-- C39: after every history of calls by any number of processes, live allocations are
16-byte aligned, inside the segment behind its header, and their extents, which
include the header and the name of each, are pairwise disjoint. -/
theorem shm_layout_partial (h : Run S lim ops m L) :
    (∀ r ∈ L, 16 ∣ r.off ∧ 80 ≤ r.lo ∧ r.lo + 48 = r.off ∧ r.off + r.n < r.hi ∧ r.hi ≤ S) ∧
    L.Pairwise fun a b => a.hi ≤ b.lo ∨ b.hi ≤ a.lo := by
  obtain ⟨T, Us, hI, hp⟩ := h.good h1 h2 h3
  refine ⟨fun r hr => ?_, ?_⟩
  · obtain ⟨c, hc, u, hu, rfl⟩ := mem_recs.1 (hp.mem_iff.1 hr)
    have hb := hI.core.off hc
    have hal := (hI.core.ok c hc).al
    have he := hI.extent hc hu
    have hN : need u.name u.req = 48 + (u.req + 16) / 16 * 16 + (u.name.length + 17) / 16 * 16 := rfl
    unfold Rec.lo Rec.hi
    show 16 ∣ c.off + 48 ∧ 80 ≤ c.off + 48 - 48 ∧ c.off + 48 - 48 + 48 = c.off + 48 ∧ c.off + 48 + u.req < c.off + 48 - 48 + need u.name u.req ∧
      c.off + 48 - 48 + need u.name u.req ≤ S
    omega
  · have key : (recs T).Pairwise fun a b => a.hi ≤ b.lo ∨ b.hi ≤ a.lo := by
      unfold recs
      rw [List.pairwise_filterMap]
      refine hI.core.tile.pairwise.imp_of_mem ?_
      intro c d hc hd hcd r hr r' hr'
      obtain ⟨u, hu, rfl⟩ := Option.map_eq_some_iff.1 hr
      obtain ⟨v, hv, rfl⟩ := Option.map_eq_some_iff.1 hr'
      have := hI.extent hc hu
      left
      unfold Rec.lo Rec.hi
      show c.off + 48 - 48 + need u.name u.req ≤ d.off + 48 - 48
      omega
    exact (hp.pairwise_iff fun hxy => hxy.symm).2 key

/-- C39: no call writes to the memory of a live allocation. Whatever a process has
written there stays until the name is released for the last time. -/
theorem shm_contents_partial (h : Run S lim ops m L) {op : Op} {m' : Mem} {L' : List Rec} (hs : Step lim op m L m' L') {r r' : Rec}
    (hr : r ∈ L) (hr' : r' ∈ L') (hn : r'.name = r.name) (hw : ∀ s, op = .write s → s ≠ r.name) :
    r'.off = r.off ∧ r'.n = r.n ∧ ∀ x, r.off ≤ x → x < r.off + r.n → m' x = m x := by
  obtain ⟨T, Us, hI, hp⟩ := h.good h1 h2 h3
  have hnn := (Good.names hI hp).1
  obtain ⟨c, hc, u, hu, rfl⟩ := mem_recs.1 (hp.mem_iff.1 hr)
  have hcU := (hI.core.ok c hc).use u hu
  have hroom := hcU.room
  have hcI : c ∈ inUse T := mem_inUse.2 ⟨hc, u, hu⟩
  have keep : ∀ m', Keep m m' T → ∀ x, c.off + 48 ≤ x → x < c.off + 48 + u.req → m' x = m x :=
    fun m' hk x g1 g2 => hk c hcI x (by omega) (by omega)
  have huniq : ∀ a ∈ L, a.name = u.name → a = ⟨u.name, c.off + 48, u.req, u.refs⟩ := fun a ha he =>
    nodup_map_inj hnn ha hr he
  have hnoteA : ∀ name n o, (name ∉ L.map (·.name) ∨ name ∈ L.map (·.name)) → r' ∈ noteAlloc L name n o →
      r'.off = c.off + 48 ∧ r'.n = u.req := by
    intro name n o _ hm
    unfold noteAlloc at hm
    by_cases hin : name ∈ L.map (·.name)
    · rw [if_pos hin] at hm
      obtain ⟨a, ha, rfl⟩ := List.mem_map.1 hm
      by_cases he : a.name = name
      · rw [if_pos he] at hn ⊢
        have := huniq a ha hn
        rw [this]; exact ⟨rfl, rfl⟩
      · rw [if_neg he] at hn ⊢
        have := huniq a ha hn
        rw [this]; exact ⟨rfl, rfl⟩
    · rw [if_neg hin] at hm
      rcases List.mem_cons.1 hm with rfl | hm
      · exact absurd (List.mem_map.2 ⟨_, hr, hn.symm⟩) hin
      · rw [huniq r' hm hn]; exact ⟨rfl, rfl⟩
  cases hs with
  | @alloc base name n p _ _ _ hb hl hrf ha =>
    obtain ⟨k1, k2⟩ := hnoteA name n (p - base) (Classical.em _).symm hr'
    refine ⟨k1, k2, ?_⟩
    rcases Good.allocate (base := base) hI hp hl hrf with ⟨_, _, _, m1, T', Us', j1, _, _, j4⟩ | ⟨_, j1, _⟩ | ⟨_, o, m1, T', Us', j1, _, _, j4⟩
    · rw [ha] at j1; cases j1; exact keep _ j4
    · rw [ha] at j1; cases j1
    · rw [ha] at j1; cases j1; exact keep _ j4
  | @full base name n _ _ _ hb hl hrf ha =>
    rw [huniq r' hr' hn]
    refine ⟨rfl, rfl, ?_⟩
    rcases Good.allocate (base := base) hI hp hl hrf with ⟨_, _, _, m1, T', Us', j1, _, _, j4⟩ | ⟨_, j1, _⟩ | ⟨_, o, m1, T', Us', j1, _, _, j4⟩
    · rw [ha] at j1; cases j1
    · rw [ha] at j1; cases j1; exact fun x _ _ => rfl
    · rw [ha] at j1; cases j1
  | @dealloc base _ _ _ q hb hq ha =>
    obtain ⟨m1, T', Us', j1, _, _, j4⟩ := Good.deallocate hI hp hb hq
    rw [ha] at j1
    cases j1
    obtain ⟨hm, hz⟩ := List.mem_filter.1 hr'
    obtain ⟨a, haL, rfl⟩ := List.mem_map.1 hm
    have hz' : (if a.name = q.name then (⟨a.name, a.off, a.n, a.refs - 1⟩ : Rec) else a).refs ≠ 0 := by simpa using hz
    have hname : a.name = u.name := by
      by_cases he : a.name = q.name
      · rw [if_pos he] at hn; exact hn
      · rw [if_neg he] at hn; exact hn
    have haq := huniq a haL hname
    have hfst : (if a.name = q.name then (⟨a.name, a.off, a.n, a.refs - 1⟩ : Rec) else a).off = c.off + 48 ∧
        (if a.name = q.name then (⟨a.name, a.off, a.n, a.refs - 1⟩ : Rec) else a).n = u.req := by
      by_cases he : a.name = q.name
      · rw [if_pos he, haq]; exact ⟨rfl, rfl⟩
      · rw [if_neg he, haq]; exact ⟨rfl, rfl⟩
    refine ⟨hfst.1, hfst.2, fun x g1 g2 => ?_⟩
    have g1' : c.off + 48 ≤ x := g1
    have g2' : x < c.off + 48 + u.req := g2
    refine j4 c hcI ?_ x (by omega) (by omega)
    by_cases he : a.name = q.name
    · right
      rw [if_pos he] at hz'
      have : q = ⟨u.name, c.off + 48, u.req, u.refs⟩ := huniq q hq (by rw [← he]; exact hname)
      rw [this]
      rw [haq] at hz'
      show u.refs ≠ 1
      have : u.refs - 1 ≠ 0 := hz'
      omega
    · left
      intro ho
      obtain ⟨d, hd, v, hv, hqe⟩ := mem_recs.1 (hp.mem_iff.1 hq)
      rw [hqe] at ho
      have ho' : c.off + 48 = d.off + 48 := ho
      have : d = c := nodup_map_inj hI.core.offs_nodup hd hc (by show d.off = c.off; omega)
      subst this
      rw [hv] at hu
      cases hu
      rw [hqe] at he
      exact he hname
  | @write _ _ _ q hq hx =>
    rw [huniq r' hr' hn]
    refine ⟨rfl, rfl, fun x g1 g2 => hx x ?_⟩
    have g1' : c.off + 48 ≤ x := g1
    have g2' : x < c.off + 48 + u.req := g2
    have hne := hw q.name rfl
    obtain ⟨d, hd, v, hv, rfl⟩ := mem_recs.1 (hp.mem_iff.1 hq)
    have hr2 := ((hI.core.ok d hd).use v hv).room
    show x < d.off + 48 ∨ d.off + 48 + v.req ≤ x
    rcases hI.core.apart hd hc with rfl | hh
    · rw [hv] at hu; cases hu; exact absurd rfl hne
    · omega

/-- C39: in no reachable state does a call by any process end in undefined behaviour or
fail to return. -/
theorem shm_safe_partial (h : Run S lim ops m L) {base : Nat} (hb : 0 < base) :
    (∀ name n, Legal name n → (∀ r ∈ L, r.name = name → r.refs + 1 < W) → ∃ p m', allocateAt base lim name n m = .ok (p, m')) ∧
    (∀ r ∈ L, ∃ m', deallocateAt base lim (base + r.off) m = .ok ((), m')) ∧
    (∀ name, ∃ p, findPointerAt base lim name m = .ok (p, m)) ∧ ∃ a, getActualSize lim m = .ok (a, m) := by
  obtain ⟨T, Us, hI, hp⟩ := h.good h1 h2 h3
  refine ⟨fun name n hl hr => ?_, fun r hr => ?_, fun name => ?_, ?_⟩
  · rcases Good.allocate (base := base) hI hp hl hr with ⟨r, _, _, m1, T', Us', k1, _⟩ | ⟨_, k1, _⟩ | ⟨_, o, m1, T', Us', k1, _⟩
    · exact ⟨_, _, k1⟩
    · exact ⟨_, _, k1⟩
    · exact ⟨_, _, k1⟩
  · obtain ⟨m1, _, _, k1, _⟩ := Good.deallocate hI hp hb hr
    exact ⟨m1, k1⟩
  · rcases hI.findPointer name with ⟨_, k⟩ | ⟨_, _, _, _, _, k⟩
    · exact ⟨_, findPointerAt_ok k⟩
    · exact ⟨_, findPointerAt_ok k⟩
  · exact ⟨_, ld_run (by have := hI.core.lim; omega)⟩

/-- C39: `allocate_named` fails for lack of memory only if the name is not live and
there is nowhere in the segment a gap of the size that is needed, where up to 39
bytes behind each live allocation do not count.  With nothing live any request that
fits into the segment succeeds, whatever happened before. -/
theorem shm_room_partial (h : Run S lim ops m L) {base : Nat} {name : List Nat} {n : Nat} (hl : Legal name n)
    (hr : ∀ r ∈ L, r.name = name → r.refs + 1 < W) {m' : Mem} (ho : allocateAt base lim name n m = .ok (none, m')) :
    name ∉ L.map (·.name) ∧
    ¬ ∃ a, 80 ≤ a ∧ a + need name n ≤ S ∧ ∀ r ∈ L, r.hi + 39 ≤ a ∨ a + need name n ≤ r.lo := by
  obtain ⟨T, Us, hI, hp⟩ := h.good h1 h2 h3
  rcases Good.allocate (base := base) hI hp hl hr with ⟨r, _, _, m1, T', Us', k1, _⟩ | ⟨k0, _, k1⟩ | ⟨_, o, m1, T', Us', k1, _⟩
  · rw [ho] at k1; cases k1
  · refine ⟨k0, ?_⟩
    rintro ⟨a, g1, g2, g3⟩
    have hN : need name n = 48 + (n + 16) / 16 * 16 + (name.length + 17) / 16 * 16 := rfl
    obtain ⟨c, hc, hcn, hk⟩ := window hI.core.tile hI.adj g1 g2 (by omega) (fun c hc => by have := (hI.core.ok c hc).size; omega) (by
      intro c hc hcu
      cases hu : c.use with
      | none => exact absurd hu hcu
      | some u =>
        have he := hI.extent hc hu
        have := g3 _ (hp.mem_iff.2 (mem_recs.2 ⟨c, hc, u, hu, rfl⟩))
        unfold Rec.lo Rec.hi at this
        have this : c.off + 48 - 48 + need u.name u.req + 39 ≤ a ∨ a + need name n ≤ c.off + 48 - 48 := this
        omega)
    have := k1 c hc hcn
    omega
  · rw [ho] at k1; cases k1

/-- C39: the bytes of the free list and `getActualSize`, which counts the header of the
segment and the live allocations, add up to the size of the segment; the free list is
ordered and no two of its blocks are adjacent. -/
theorem shm_accounting_partial (h : Run S lim ops m L) :
    ∃ a F, getActualSize lim m = .ok (a, m) ∧ walk lim (lim + 1) (m.rd 64 8) m = .ok (F, m) ∧
      a + (F.map (·.2)).sum = S ∧ F.Pairwise (fun x y => x.1 + x.2 < y.1) ∧
      80 + (L.map fun r => need r.name r.n).sum ≤ a ∧ a ≤ 80 + (L.map fun r => need r.name r.n + 39).sum := by
  obtain ⟨T, Us, hI, hp⟩ := h.good h1 h2 h3
  have hco := hI.core
  have hw : ∀ (C : List Chunk) (o fuel : Nat), (∀ c ∈ C, c ∈ T) → Links m o (C.map (·.off)) 0 → C.length < fuel →
      walk lim fuel o m = .ok (C.map fun c => (c.off, c.size), m) := by
    intro C
    induction C with
    | nil =>
      intro o fuel _ hl hf
      cases fuel with
      | zero => simp at hf
      | succ fuel =>
        unfold walk
        rw [if_pos (show o = 0 from hl)]
        rfl
    | cons c C ih =>
      intro o fuel hC hl hf
      cases fuel with
      | zero => simp at hf
      | succ fuel =>
        obtain ⟨g1, g2⟩ := hl
        have g1' : o = c.off := g1
        subst g1'
        have hc := hC c (by simp)
        have hb := hco.off hc
        unfold walk
        rw [if_neg (by omega), bind_run (get_run (by omega) (by omega)), bind_run (get_run (by omega) (by omega)), Nat.add_zero,
          bind_run (ih _ fuel (fun d hd => hC d (by simp [hd])) g2 (by simp at hf; omega)), (hco.ok c hc).hdr]
        rfl
  have hcnt : (T.filter fun c => c.use.isNone).length < lim + 1 := by
    have h1 := hI.core.count
    have := List.length_filter_le (fun c : Chunk => c.use.isNone) T
    omega
  refine ⟨m.rd 56 8, _, ld_run (by have := hco.lim; omega), hw _ _ _ (fun c hc => (List.mem_filter.1 hc).1) hI.fl hcnt, ?_, ?_, ?_, ?_⟩
  · rw [hco.act]
    have key : ∀ (T : List Chunk) (o : Nat), Tile o T S →
        o + usedBytes T + (((T.filter fun c => c.use.isNone).map fun c => (c.off, c.size)).map (·.2)).sum = S := by
      intro T
      induction T with
      | nil => intro o ht; have : o = S := ht; simp [usedBytes, this]
      | cons c T ih =>
        intro o ht
        have := ih _ ht.2
        cases hc : c.use with
        | none =>
          rw [usedBytes_none hc, List.filter_cons_of_pos (by simp [hc])]
          simp only [List.map_cons, List.sum_cons]
          omega
        | some u =>
          rw [usedBytes_some hc, List.filter_cons_of_neg (by simp [hc])]
          omega
    exact key T 80 hco.tile
  · rw [List.pairwise_map, List.pairwise_filter]
    have key : ∀ (T : List Chunk) (o : Nat), Tile o T S → NoAdj T → (∀ c ∈ T, 40 ≤ c.size) →
        T.Pairwise fun a b => a.use.isNone = true → b.use.isNone = true → a.off + a.size < b.off := by
      intro T
      induction T with
      | nil => intro o _ _ _; exact .nil
      | cons c T ih =>
        intro o ht hn hs
        refine .cons ?_ (ih _ ht.2 hn.tail fun d hd => hs d (by simp [hd]))
        intro b hb hcn hbn
        cases T with
        | nil => cases hb
        | cons d T =>
          have hdn : d.use ≠ none := fun hd => hn.1 ⟨by simpa using hcn, hd⟩
          have hbT : b ∈ T := by
            rcases List.mem_cons.1 hb with rfl | hb
            · exact absurd (by simpa using hbn) hdn
            · exact hb
          have hp := ht.2.pairwise
          rw [List.pairwise_cons] at hp
          have q1 := hp.1 b hbT
          have q2 := hs d (by simp)
          have q3 := ht.1
          have q4 := ht.2.1
          omega
    exact key T 80 hco.tile hI.adj fun c hc => (hco.ok c hc).size
  · rw [hco.act, (hp.map _).sum_nat]
    have key : ∀ T' : List Chunk, (∀ c ∈ T', c ∈ T) → ((recs T').map fun r => need r.name r.n).sum ≤ usedBytes T' := by
      intro T'
      induction T' with
      | nil => intro _; exact Nat.zero_le _
      | cons c T' ih =>
        intro hT
        have := ih fun d hd => hT d (by simp [hd])
        cases hc : c.use with
        | none => rw [recs_none hc, usedBytes_none hc]; exact this
        | some u =>
          have := hI.extent (hT c (by simp)) hc
          rw [recs_some hc, usedBytes_some hc, List.map_cons, List.sum_cons]
          simp only
          omega
    have := key T fun c hc => hc
    omega
  · rw [hco.act, (hp.map _).sum_nat]
    have key : ∀ T' : List Chunk, (∀ c ∈ T', c ∈ T) → usedBytes T' ≤ ((recs T').map fun r => need r.name r.n + 39).sum := by
      intro T'
      induction T' with
      | nil => intro _; exact Nat.le_refl _
      | cons c T' ih =>
        intro hT
        have := ih fun d hd => hT d (by simp [hd])
        cases hc : c.use with
        | none => rw [recs_none hc, usedBytes_none hc]; exact this
        | some u =>
          have := hI.extent (hT c (by simp)) hc
          rw [recs_some hc, usedBytes_some hc, List.map_cons, List.sum_cons]
          simp only
          omega
    have := key T fun c hc => hc
    omega

/-! ## C40 -/

/-- C40: allocating a live name returns, in every process, the address of the same
block; the caller's ledger is one reference up. -/
theorem shm_same_name_partial (h : Run S lim ops m L) {r : Rec} (hr : r ∈ L) {base n : Nat} (hl : Legal r.name n) (hf : r.refs + 1 < W) :
    ∃ m', allocateAt base lim r.name n m = .ok (some (base + r.off), m') ∧ ∃ a, getActualSize lim m = .ok (a, m) ∧ getActualSize lim m' = .ok (a, m') := by
  obtain ⟨T, Us, hI, hp⟩ := h.good h1 h2 h3
  have hnn := (Good.names hI hp).1
  have hlim := hI.core.lim
  rcases hI.allocate hl with ⟨A, c, B, u, rfl, hu, hn, hh⟩ | ⟨k0, _⟩ | ⟨k0, _⟩
  · have hrec := hp.mem_iff.2 (mem_recs.2 ⟨c, by simp, u, hu, rfl⟩)
    have : r = ⟨u.name, c.off + 48, u.req, u.refs⟩ := nodup_map_inj hnn hr hrec hn.symm
    subst this
    obtain ⟨m', k1, k2, _⟩ := hh hf
    refine ⟨m', ?_, m.rd 56 8, ld_run (by omega), ?_⟩
    · rw [allocateAt_ok k1]
      show Except.ok (some (toPtr base (c.off + 48)), m') = _
      rw [toPtr_pos (by omega)]
    · have : m.rd 56 8 = m'.rd 56 8 := by
        rw [hI.core.act, k2.core.act, usedBytes_append, usedBytes_append, usedBytes_some hu, usedBytes_some (u := ⟨u.req, u.name, u.refs + 1⟩) rfl]
      rw [this]
      exact ld_run (by omega)
  · exact absurd (((Good.names hI hp).2 _).1 (List.mem_map.2 ⟨r, hr, rfl⟩)) k0
  · exact absurd (((Good.names hI hp).2 _).1 (List.mem_map.2 ⟨r, hr, rfl⟩)) k0

/-- C40: the reference count of a name is the number of its successful allocations less
that of its deallocations. -/
theorem shm_refs_partial (h : Run S lim ops m L) (name : List Nat) :
    allocs name ops = deallocs name ops + refsOf L name ∧ ∀ r ∈ L, refsOf L r.name = r.refs ∧ 1 ≤ r.refs := by
  refine ⟨?_, ?_⟩
  · induction h with
    | init _ => rfl
    | step hr hs ih =>
      obtain ⟨T, Us, hI, hp⟩ := hr.good h1 h2 h3
      have hnn := (Good.names hI hp).1
      cases hs with
      | alloc hb hl hrf ha =>
        rw [refsOf_alloc hnn]
        simp only [allocs, deallocs]
        omega
      | full hb hl hrf ha => exact ih
      | dealloc hb hq ha =>
        have := refsOf_free (s := name) hnn hq (hI.refs_pos (hp.mem_iff.1 hq))
        simp only [allocs, deallocs]
        omega
      | write hq hx => exact ih
  · obtain ⟨T, Us, hI, hp⟩ := h.good h1 h2 h3
    have hnn := (Good.names hI hp).1
    intro r hr
    refine ⟨?_, hI.refs_pos (hp.mem_iff.1 hr)⟩
    obtain ⟨A, B, rfl⟩ := List.append_of_mem hr
    rw [List.map_append, List.map_cons, List.nodup_append, List.nodup_cons] at hnn
    have hz : ∀ l : List Rec, r.name ∉ l.map (·.name) → refsOf l r.name = 0 := by
      intro l hl
      unfold refsOf
      rw [List.filter_eq_nil_iff.2]
      · rfl
      · intro x hx he
        exact hl (List.mem_map.2 ⟨x, hx, by simpa using he⟩)
    rw [refsOf_split, if_pos rfl, hz A fun hx => hnn.2.2 _ hx _ (by simp) rfl, hz B hnn.2.1.1]
    omega

/-- C40: `find_pointer_from_name` finds exactly the names that have been allocated more
often than deallocated, and returns the address `allocate_named` returned. -/
theorem shm_find_partial (h : Run S lim ops m L) (base : Nat) (name : List Nat) :
    (allocs name ops = deallocs name ops ∧ name ∉ L.map (·.name) ∧ findPointerAt base lim name m = .ok (none, m)) ∨
    (deallocs name ops < allocs name ops ∧ ∃ r ∈ L, r.name = name ∧ findPointerAt base lim name m = .ok (some (base + r.off), m)) := by
  obtain ⟨T, Us, hI, hp⟩ := h.good h1 h2 h3
  have hc := (shm_refs_partial h1 h2 h3 h name).1
  have hpos := refsOf_pos (L := L) (s := name) fun r hr => hI.refs_pos (hp.mem_iff.1 hr)
  rcases hI.findPointer name with ⟨k0, k1⟩ | ⟨c, hcT, u, hu, he, k1⟩
  · left
    have hn : name ∉ L.map (·.name) := fun hx => k0 (((Good.names hI hp).2 _).1 hx)
    have := hpos.2 hn
    refine ⟨by omega, hn, ?_⟩
    rw [findPointerAt_ok k1]
    rfl
  · right
    have hrec := hp.mem_iff.2 (mem_recs.2 ⟨c, hcT, u, hu, rfl⟩)
    have : refsOf L name ≠ 0 := fun h0 => hpos.1 h0 (List.mem_map.2 ⟨_, hrec, he⟩)
    refine ⟨by omega, _, hrec, he, ?_⟩
    rw [findPointerAt_ok k1]
    show Except.ok (some (toPtr base (c.off + 48)), m) = _
    rw [toPtr_pos (by omega)]

end

end Umpire.Shm
