import Verif.Shm.MergeNext
set_option autoImplicit false
set_option linter.unusedSimpArgs false
namespace Umpire.Shm
open Umpire.Prog
open Umpire.SizeArith (shmBytes shm_bytes_partial)

theorem names_inUse {T T' : List Chunk} (h : inUse T = inUse T') : names T = names T' := by
  have key : ∀ T : List Chunk, names T = names (inUse T) := by
    intro T
    induction T with
    | nil => rfl
    | cons c T ih =>
      cases hc : c.use with
      | none => rw [names_none hc, inUse_none hc, ih]
      | some u => rw [names_some hc, inUse_some hc, names_some hc, ih]
  rw [key T, key T', h]

theorem mem_names {T : List Chunk} {s : List Nat} : s ∈ names T ↔ ∃ c ∈ T, ∃ u, c.use = some u ∧ u.name = s := by
  unfold names
  rw [List.mem_map]
  constructor
  · rintro ⟨u, hu, rfl⟩
    obtain ⟨c, hc, he⟩ := List.mem_filterMap.1 hu
    exact ⟨c, hc, u, he, rfl⟩
  · rintro ⟨c, hc, u, hu, rfl⟩
    exact ⟨u, List.mem_filterMap.2 ⟨c, hc, hu⟩, rfl⟩

theorem Inv.findExisting {S lim : Nat} {m : Mem} {T : List Chunk} {Us : List Nat} (h : Inv S lim m T Us) (name : List Nat) :
    (findExisting lim name (lim + 1) (m.rd 72 8) m = .ok (0, m) ∧ name ∉ names T) ∨
    ∃ c ∈ T, ∃ u, c.use = some u ∧ u.name = name ∧ findExisting lim name (lim + 1) (m.rd 72 8) m = .ok (c.off, m) := by
  have hf : Us.length < lim + 1 := by
    have h1 := h.core.count
    have h2 := h.perm.length_eq
    have h5 : (useds T).length ≤ T.length := by unfold useds; rw [List.length_map]; exact List.length_filter_le _ _
    omega
  rcases findExisting_run h.core (name := name) h.ul (fun x hx => h.perm.mem_iff.1 hx) hf with ⟨h1, h2⟩ | h1
  · refine Or.inl ⟨h1, fun hn => ?_⟩
    obtain ⟨c, hc, u, hu, he⟩ := mem_names.1 hn
    exact h2 c hc (h.perm.mem_iff.2 (mem_useds.2 ⟨c, hc, u, hu, rfl⟩)) u hu he
  · exact Or.inr h1

/-- Only the reference count of a block in use changes. -/
theorem Inv.count {S lim : Nat} {m : Mem} {A B : List Chunk} {c : Chunk} {Us : List Nat} {u : Use}
    (h : Inv S lim m (A ++ c :: B) Us) (hu : c.use = some u) {k : Nat} (hk : 1 ≤ k ∧ k < W) :
    Inv S lim (m.wr (c.off + 32) 8 k) (A ++ ⟨c.off, c.size, some ⟨u.req, u.name, k⟩⟩ :: B) Us ∧
      Keep m (m.wr (c.off + 32) 8 k) (A ++ c :: B) := by
  have hco := h.core
  have hcT : c ∈ A ++ c :: B := by simp
  have hb := hco.off hcT
  have hcU := (hco.ok c hcT).use u hu
  have hroom := hcU.room
  have hotr := hco.others
  let c' : Chunk := ⟨c.off, c.size, some ⟨u.req, u.name, k⟩⟩
  have hout : ∀ x, x < c.off + 32 ∨ c.off + 40 ≤ x → m.wr (c.off + 32) 8 k x = m x := fun x hx => Mem.wr_out (by omega)
  have hrd : ∀ d ∈ A ++ c :: B, m.rd d.off 8 = (m.wr (c.off + 32) 8 k).rd d.off 8 := by
    intro d hd
    have := hco.off hd
    rw [Mem.rd_wr_out]
    rcases hco.apart hd hcT with rfl | hh <;> omega
  refine ⟨⟨?_, ?_, ?_, ?_, ?_⟩, ?_⟩
  · refine hco.local (c' := c') rfl rfl ?_ ?_ ?_ ?_
    · refine ⟨(hco.ok c hcT).al, (hco.ok c hcT).size, ?_, ?_⟩
      · show (m.wr (c.off + 32) 8 k).rd (c.off + 24) 8 = c.size
        rw [Mem.rd_wr_out (by omega)]; exact (hco.ok c hcT).hdr
      · intro v hv
        cases hv
        refine ⟨hcU.name, hcU.req, hcU.len, hcU.fits, hcU.slack, hk, ?_, ?_, ?_, ?_⟩
        · show (m.wr (c.off + 32) 8 k).rd (c.off + 8) 8 = c.off + 48 + shmBytes u.req
          rw [Mem.rd_wr_out (by omega)]; exact hcU.nameOff
        · show (m.wr (c.off + 32) 8 k).rd (c.off + 16) 8 = c.off + 48
          rw [Mem.rd_wr_out (by omega)]; exact hcU.memOff
        · exact rd_wr8 hk.2
        · show StrAt _ (c.off + 48 + shmBytes u.req) u.name
          exact hcU.str.congr fun x _ _ => (hout x (by omega)).symm
    · intro d hd x g1 g2
      have := hotr d hd
      exact hout x (by omega)
    · rw [Mem.rd_wr_out (by omega), hco.act, usedBytes_append, usedBytes_append, usedBytes_some hu, usedBytes_some (c := c') rfl]
    · have := hco.nd
      rw [names_append, names_some hu] at this
      rw [names_append, names_some (c := c') rfl]
      exact this
  · have hfl := h.fl
    rw [frees_append, frees_some hu] at hfl
    rw [Mem.rd_wr_out (by omega), frees_append, frees_some (c := c') rfl]
    refine hfl.congr fun x hx => ?_
    have : ∃ d ∈ A ++ c :: B, d.off = x := by
      rcases List.mem_append.1 hx with hx | hx
      · obtain ⟨d, hd, he⟩ := frees_mem hx; exact ⟨d, by simp [hd], he⟩
      · obtain ⟨d, hd, he⟩ := frees_mem hx; exact ⟨d, by simp [hd], he⟩
    obtain ⟨d, hd, rfl⟩ := this
    exact hrd d hd
  · rw [Mem.rd_wr_out (by omega)]
    refine h.ul.congr fun x hx => ?_
    obtain ⟨d, hd, rfl⟩ := useds_mem (h.perm.mem_iff.1 hx)
    exact hrd d hd
  · have hp := h.perm
    rw [useds_append, useds_some hu] at hp
    rw [useds_append, useds_some (c := c') rfl]
    exact hp
  · exact h.adj.left.join h.adj.right.tail (by simp)
  · intro d hd x g1 g2
    obtain ⟨hd, _, _⟩ := mem_inUse.1 hd
    have := hco.off hd
    refine hout x ?_
    rcases hco.apart hd hcT with rfl | hh <;> omega

theorem split_filter {T L1 L2 : List Chunk} {c : Chunk} (h : (T.filter fun c => c.use.isNone) = L1 ++ c :: L2) :
    ∃ A B, T = A ++ c :: B ∧ frees A = L1.map (·.off) ∧ c.use = none := by
  obtain ⟨A1, B1, rfl, h1, h2⟩ := List.filter_eq_append_iff.1 h
  obtain ⟨A2, B2, rfl, h3, h4, h5⟩ := List.filter_eq_cons_iff.1 h2
  refine ⟨A1 ++ A2, B2, by simp, ?_, by simpa using h4⟩
  rw [frees_append]
  have : (A2.filter fun c => c.use.isNone) = [] := List.filter_eq_nil_iff.2 h3
  unfold frees
  rw [h1, this]
  simp

/-- A request that is not so large that the computation of the block size wraps. -/
def Legal (name : List Nat) (n : Nat) : Prop := NameOk name ∧ n + name.length + 100 < W

/-- The size of a block for `n` bytes under a name. -/
def need (name : List Nat) (n : Nat) : Nat := 48 + (n + 16) / 16 * 16 + (name.length + 17) / 16 * 16

theorem shmBytes_eq {n : Nat} (h : n + 16 < W) : shmBytes n = (n + 16) / 16 * 16 := by
  have h1 := (shm_bytes_partial h)
  omega

theorem adjusted_eq {name : List Nat} {n : Nat} (h : Legal name n) : adjusted name n = need name n := by
  obtain ⟨_, h2⟩ := h
  unfold adjusted need
  rw [shmBytes_eq (by omega), shmBytes_eq (by omega), w64_of_lt (by omega)]

theorem Inv.allocate {S lim : Nat} {m : Mem} {T : List Chunk} {Us : List Nat} (h : Inv S lim m T Us) {name : List Nat} {n : Nat}
    (hl : Legal name n) :
    (∃ A c B u, T = A ++ c :: B ∧ c.use = some u ∧ u.name = name ∧ (u.refs + 1 < W →
      ∃ m', allocate lim name n m = .ok (some (c.off + 48), m') ∧
        Inv S lim m' (A ++ ⟨c.off, c.size, some ⟨u.req, u.name, u.refs + 1⟩⟩ :: B) Us ∧ Keep m m' T)) ∨
    (name ∉ names T ∧ allocate lim name n m = .ok (none, m) ∧ ∀ c ∈ T, c.use = none → c.size < need name n) ∨
    (name ∉ names T ∧ ∃ m' A c B, inUse (A ++ B) = inUse T ∧ c.use = some ⟨n, name, 1⟩ ∧
      allocate lim name n m = .ok (some (c.off + 48), m') ∧ Inv S lim m' (A ++ c :: B) (c.off :: Us) ∧ Keep m m' T) := by
  have hbig := h.core.big
  have hlim := h.core.lim
  have hAW := AMax_lt
  unfold Shm.allocate
  rw [bind_run (ld_run (by omega))]
  rcases h.findExisting name with ⟨h1, h2⟩ | ⟨c, hc, u, hu, he, h1⟩
  · right
    rw [bind_run h1, if_neg (by simp), bind_run (ld_run (by omega))]
    have hcl : (T.filter fun c => c.use.isNone).length < lim + 1 := by
      have h1 := h.core.count
      have := List.length_filter_le (fun c : Chunk => c.use.isNone) T
      omega
    rw [adjusted_eq hl]
    obtain ⟨b, p, g1, g2⟩ := findUsable_run (size := need name n) (iterPrev := 0) (prev := 0) h.core (L := T.filter fun c => c.use.isNone)
      (fun c hc => (List.mem_filter.1 hc).1) h.fl (Or.inl rfl) hcl
    rw [bind_run g1]
    rcases g2 with ⟨rfl, rfl, g3⟩ | ⟨L1, c, L2, g3, rfl, rfl, g4⟩
    · left
      refine ⟨h2, by rw [if_pos rfl]; rfl, fun c hc hn => g3 rfl c (List.mem_filter.2 ⟨hc, by simp [hn]⟩)⟩
    · right
      obtain ⟨A, B, rfl, hA, hcn⟩ := split_filter g3
      have hb := h.core.off (c := c) (by simp)
      refine ⟨h2, ?_⟩
      rw [if_neg (by show c.off ≠ 0; omega)]
      obtain ⟨m1, c', B', k1, k2, k3, k4, k5, k6, k7, k8⟩ := h.split hcn g4 (by unfold need; omega) (by unfold need; omega)
      rw [hA] at k1
      rw [bind_run k1]
      have hl2 := hl.2
      have e1 : shmBytes n = (n + 16) / 16 * 16 := shmBytes_eq (by omega)
      have e2 : shmBytes (name.length + 1) = (name.length + 17) / 16 * 16 := shmBytes_eq (by omega)
      obtain ⟨m2, j1, j2, j3⟩ := k2.take (name := name) (req := n) hl.1 (by omega) (by omega)
        (by rw [e1, e2]; exact k4) (by rw [e1, e2]; exact k5) (by rw [k7]; exact h2)
      rw [k3] at j1
      rw [show ((c.off, lastOr (L1.map (·.off)) 0) : Nat × Nat).1 = c.off from rfl, bind_run j1]
      refine ⟨m2, A, _, B', ?_, rfl, ?_, j2, k8.trans j3 k6.symm⟩
      · rw [← k6, inUse_append, inUse_append, inUse_none k2.none]
      · show Except.ok (some (c.off + 48), m2) = Except.ok (some (c'.off + 48), m2)
        rw [k3]
  · left
    obtain ⟨A, B, rfl⟩ := List.append_of_mem hc
    have hb := h.core.off hc
    have hcU := (h.core.ok c hc).use u hu
    refine ⟨A, c, B, u, rfl, hu, he, fun hr => ?_⟩
    obtain ⟨k1, k2⟩ := h.count hu (k := u.refs + 1) ⟨by omega, hr⟩
    refine ⟨_, ?_, k1, k2⟩
    rw [bind_run h1, if_pos (by omega), bind_run (get_run (by omega) (by omega)), hcU.count, w64_of_lt hr,
      bind_run (set_run (by omega) (by omega)), bind_run (get_run (by omega) (by omega)), Mem.rd_wr_out (by omega), hcU.memOff]
    rfl

theorem Inv.deallocate {S lim : Nat} {m : Mem} {A B : List Chunk} {c : Chunk} {Us : List Nat} {u : Use}
    (h : Inv S lim m (A ++ c :: B) Us) (hu : c.use = some u) :
    (u.refs = 1 → ∃ m' T Us', deallocate lim (c.off + 48) m = .ok ((), m') ∧ Inv S lim m' T Us' ∧
      inUse T = inUse (A ++ B) ∧ Keep m m' (A ++ B)) ∧
    (u.refs ≠ 1 → ∃ m', deallocate lim (c.off + 48) m = .ok ((), m') ∧
      Inv S lim m' (A ++ ⟨c.off, c.size, some ⟨u.req, u.name, u.refs - 1⟩⟩ :: B) Us ∧ Keep m m' (A ++ c :: B)) := by
  have hcT : c ∈ A ++ c :: B := by simp
  have hb := h.core.off hcT
  have hAW := AMax_lt
  have hcU := (h.core.ok c hcT).use u hu
  refine ⟨fun h1 => ?_, fun h1 => ?_⟩
  · obtain ⟨m1, Us', k1, k2, k3⟩ := h.unlink hu h1
    obtain ⟨m2, T, j1, j2, j3, j4⟩ := insertFree_mid k2
    have e : inUse (A ++ ⟨c.off, c.size, none⟩ :: B) = inUse (A ++ B) := by
      rw [inUse_append, inUse_append, inUse_none rfl]
    exact ⟨m2, T, Us', k1.trans j1, j2, j4.trans e, k3.trans j3 e.symm⟩
  · have hr := hcU.refs
    have hroom := hcU.room
    have hblk : w64 (c.off + 48 + (W - 48)) = c.off := by rw [wsub (by omega) (by omega)]; omega
    obtain ⟨k1, k2⟩ := h.count hu (k := u.refs - 1) ⟨by omega, by omega⟩
    refine ⟨_, ?_, k1, k2⟩
    rw [show Shm.deallocate lim (c.off + 48) = dropBlock lim (w64 (c.off + 48 + (W - 48))) from rfl, hblk]
    unfold dropBlock
    rw [bind_run (get_run (by omega) (by omega)), hcU.count, wsub hr.2 hr.1, bind_run (set_run (by omega) (by omega)), if_neg (by omega)]
    rfl

theorem Inv.findPointer {S lim : Nat} {m : Mem} {T : List Chunk} {Us : List Nat} (h : Inv S lim m T Us) (name : List Nat) :
    (name ∉ names T ∧ findPointer lim name m = .ok (none, m)) ∨
    ∃ c ∈ T, ∃ u, c.use = some u ∧ u.name = name ∧ findPointer lim name m = .ok (some (c.off + 48), m) := by
  have hbig := h.core.big
  have hlim := h.core.lim
  unfold Shm.findPointer
  rw [bind_run (ld_run (by omega))]
  rcases h.findExisting name with ⟨h1, h2⟩ | ⟨c, hc, u, hu, he, h1⟩
  · exact Or.inl ⟨h2, by rw [bind_run h1, if_neg (by simp)]; rfl⟩
  · have hb := h.core.off hc
    refine Or.inr ⟨c, hc, u, hu, he, ?_⟩
    rw [bind_run h1, if_pos (by omega), bind_run (get_run (by omega) (by omega)), ((h.core.ok c hc).use u hu).memOff]
    rfl

theorem Inv.create {S lim : Nat} {m : Mem} (h1 : 120 ≤ S) (h2 : S < AMax) (h3 : S ≤ lim) :
    ∃ m', create lim S m = .ok ((), m') ∧ Inv S lim m' [⟨80, S - 80, none⟩] [] := by
  have hAW := AMax_lt
  unfold Shm.create
  rw [bind_run (st_run (by omega)), bind_run (st_run (by omega)), bind_run (st_run (by omega)), bind_run (st_run (by omega)),
    bind_run (set_run (by omega) (by omega)), bind_run (set_run (by omega) (by omega)), wsub (by omega) (by omega),
    bind_run (set_run (by omega) (by omega)), set_run (by omega) (by omega)]
  refine ⟨_, rfl, ⟨h3, ⟨h1, h2⟩, ⟨rfl, by show 80 + (S - 80) = S; omega⟩, ?_, ?_, by simp [names]⟩, ?_, ?_, ?_, trivial⟩
  · intro c hc
    rw [List.mem_singleton] at hc
    subst hc
    refine ⟨by show 16 ∣ 80; decide, by show 40 ≤ S - 80; omega, ?_, fun u hu => by cases hu⟩
    rw [Mem.rd_wr_out (by simp)]
    exact rd_wr8 (by omega)
  · rw [Mem.rd_wr_out (by simp), Mem.rd_wr_out (by simp), Mem.rd_wr_out (by simp), Mem.rd_wr_out (by simp), Mem.rd_wr_out (by simp)]
    rw [rd_wr8 (by omega)]
    simp [usedBytes]
  · rw [Mem.rd_wr_out (by simp), Mem.rd_wr_out (by simp), Mem.rd_wr_out (by simp), Mem.rd_wr_out (by simp), Mem.rd_wr_out (by simp),
      Mem.rd_wr_out (by simp), rd_wr8 (by omega)]
    refine ⟨rfl, ?_⟩
    show Mem.rd _ 80 8 = 0
    rw [Mem.rd_wr_out (by simp), Mem.rd_wr_out (by simp), Mem.rd_wr_out (by simp), rd_wr8 (by omega)]
  · rw [Mem.rd_wr_out (by simp), Mem.rd_wr_out (by simp), Mem.rd_wr_out (by simp), Mem.rd_wr_out (by simp), rd_wr8 (by omega)]
    rfl
  · exact .refl _

end Umpire.Shm
