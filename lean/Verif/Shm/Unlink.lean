import Verif.Shm.Take
set_option autoImplicit false
set_option linter.unusedSimpArgs false
namespace Umpire.Shm
open Umpire.Prog
open Umpire.SizeArith (shmBytes shm_bytes_partial)

theorem names_perm_none {A B : List Chunk} {c : Chunk} {u : Use} (hu : c.use = some u) (h : (names (A ++ c :: B)).Nodup) :
    (names (A ++ ⟨c.off, c.size, none⟩ :: B)).Nodup := by
  rw [names_append, names_some hu] at h
  rw [names_append, names_none rfl]
  exact (List.perm_middle.nodup_iff.1 h).of_cons

/-- The last reference is given up: the block leaves the list of blocks in use. -/
theorem Inv.unlink {S lim : Nat} {m : Mem} {A B : List Chunk} {c : Chunk} {Us : List Nat} {u : Use}
    (h : Inv S lim m (A ++ c :: B) Us) (hu : c.use = some u) (h1 : u.refs = 1) :
    ∃ m' Us', deallocate lim (c.off + 48) m = insertFree lim c.off m' ∧
      Mid S lim m' A ⟨c.off, c.size, none⟩ B Us' ∧ Keep m m' (A ++ B) := by
  have hco := h.core
  have hcT : c ∈ A ++ c :: B := by simp
  have hb := hco.off hcT
  have hAW := AMax_lt
  have hdr := (hco.ok c hcT).hdr
  have hcnt := ((hco.ok c hcT).use u hu).count
  have hotr := hco.others
  have hroom := ((hco.ok c hcT).use u hu).room
  have hblk : w64 (c.off + 48 + (W - 48)) = c.off := by rw [wsub (by omega) (by omega)]; omega
  have hzero : w64 (1 + (W - 1)) = 0 := by decide
  have hub : usedBytes (A ++ c :: B) = usedBytes (A ++ B) + c.size := by
    rw [usedBytes_append, usedBytes_some hu, usedBytes_append]; omega
  have hact := hco.act
  have hactW : m.rd 56 8 < W := rd8_lt
  -- the list of blocks in use
  have hcU : c.off ∈ Us := h.perm.mem_iff.2 (mem_useds.2 ⟨c, hcT, u, hu, rfl⟩)
  obtain ⟨l1, l2, rfl⟩ := List.append_of_mem hcU
  have hnd : (l1 ++ c.off :: l2).Nodup := h.perm.nodup_iff.2 hco.useds_nodup
  have hmem : ∀ x ∈ l1 ++ c.off :: l2, ∃ d ∈ A ++ c :: B, d.off = x := fun x hx => useds_mem (h.perm.mem_iff.1 hx)
  have hnd' := List.nodup_append.1 hnd
  have hc1 : c.off ∉ l1 := fun hx => hnd'.2.2 _ hx _ (by simp) rfl
  have hc2 : c.off ∉ l2 := (List.nodup_cons.1 hnd'.2.1).1
  rw [show deallocate lim (c.off + 48) = dropBlock lim (w64 (c.off + 48 + (W - 48))) from rfl, hblk]
  unfold dropBlock
  rw [bind_run (get_run (by omega) (by omega)), hcnt, h1, hzero, bind_run (set_run (by omega) (by omega)), if_pos rfl,
    bind_run (ld_run (by omega)), Mem.rd_wr_out (by omega), bind_run (get_run (by omega) (by omega)), Mem.rd_wr_out (by omega), hdr,
    wsub hactW (by omega), bind_run (st_run (by omega)), bind_run (set_run (by omega) (by omega)),
    bind_run (set_run (by omega) (by omega)), bind_run (ld_run (by omega))]
  generalize hm1 : ((((m.wr (c.off + 32) 8 0).wr 56 8 (m.rd 56 8 - c.size)).wr (c.off + 16) 8 0).wr (c.off + 8) 8 0) = m1
  have hout : ∀ x, x < 56 ∨ 64 ≤ x → x < c.off + 8 ∨ c.off + 24 ≤ x → x < c.off + 32 ∨ c.off + 40 ≤ x → m1 x = m x := by
    intro x g1 g2 g3
    rw [← hm1, Mem.wr_out (by omega), Mem.wr_out (by omega), Mem.wr_out (by omega), Mem.wr_out (by omega)]
  have r56 : m1.rd 56 8 = 80 + usedBytes (A ++ B) := by
    rw [← hm1, Mem.rd_wr_out (by omega), Mem.rd_wr_out (by omega), rd_wr8 (by omega)]
    omega
  have r24 : m1.rd (c.off + 24) 8 = c.size := by
    rw [← hdr]; exact Mem.rd_congr fun x _ _ => hout x (by omega) (by omega) (by omega)
  have rnext : ∀ d ∈ A ++ c :: B, m1.rd d.off 8 = m.rd d.off 8 := by
    intro d hd
    have hbd := hco.off hd
    refine Mem.rd_congr fun x _ _ => hout x (by omega) ?_ ?_
    · rcases hco.apart hd hcT with rfl | hh <;> omega
    · rcases hco.apart hd hcT with rfl | hh <;> omega
  let c0 : Chunk := ⟨c.off, c.size, none⟩
  have hcong : ∀ d ∈ A ++ B, ∀ x, d.off ≤ x → x < d.off + d.size → m1 x = m x := by
    intro d hd x g1 g2
    have := hotr d hd
    have := hco.off (c := d) (mem_split.2 (Or.inr hd))
    exact hout x (by omega) (by omega) (by omega)
  have hcore1 : Core S lim m1 (A ++ c0 :: B) := by
    refine hco.local rfl rfl ⟨(hco.ok c hcT).al, (hco.ok c hcT).size, r24, fun u hu => by cases hu⟩
      (fun d hd x g1 g2 => hcong d hd x (by omega) g2) ?_ (names_perm_none hu hco.nd)
    rw [r56, usedBytes_append, usedBytes_append, usedBytes_none (c := c0) rfl]
  have hmem' : ∀ x ∈ l1 ++ c.off :: l2, ∃ d ∈ A ++ c0 :: B, d.off = x := fun x hx => by
    obtain ⟨d, hd, rfl⟩ := hmem x hx
    rcases mem_split.1 hd with rfl | hd
    · exact ⟨c0, by simp, rfl⟩
    · exact ⟨d, mem_split.2 (Or.inr hd), rfl⟩
  have hul1 : Links m1 (m1.rd 72 8) (l1 ++ c.off :: l2) 0 := by
    rw [show m1.rd 72 8 = m.rd 72 8 from Mem.rd_congr fun x _ _ => hout x (by omega) (by omega) (by omega)]
    refine h.ul.congr fun x hx => ?_
    obtain ⟨d, hd, rfl⟩ := hmem x hx
    exact (rnext d hd).symm
  have hcount : l1.length < lim + 1 := by
    have h3 := hco.count
    have h4 := h.perm.length_eq
    have h5 : (useds (A ++ c :: B)).length ≤ (A ++ c :: B).length := by
      unfold useds; rw [List.length_map]; exact List.length_filter_le _ _
    simp only [List.length_append, List.length_cons] at h3 h4 h5
    omega
  rw [bind_run (findPrev_run hul1 (fun x hx => by
    obtain ⟨d, hd, rfl⟩ := hmem x (by simp [hx])
    have := hco.off hd
    exact ⟨by omega, by omega, fun he => hc1 (he ▸ hx)⟩) hcount)]
  rw [Links.append] at hul1
  obtain ⟨y, hu1, hy, hu2⟩ := hul1
  subst hy
  obtain ⟨m2, p1, p2, p3, p4, p5, p6, _, _⟩ := hcore1.putNext (v := m1.rd c.off 8) hu1 (Or.inr rfl)
    (fun x hx => hmem' x (by simp [hx])) hnd'.1 rd8_lt
  unfold releaseBlock
  rw [bind_run (get_run (by omega) (by omega)), Nat.add_zero, bind_run p1]
  refine ⟨m2, l1 ++ l2, rfl, ⟨p2, rfl, ?_, ?_, ?_, h.adj.left, h.adj.right.tail⟩, ?_⟩
  · rw [p5 64 (by omega) (by omega)]
    rw [show m1.rd 64 8 = m.rd 64 8 from Mem.rd_congr fun x _ _ => hout x (by omega) (by omega) (by omega)]
    have hfl := h.fl
    rw [frees_append, frees_some hu] at hfl
    refine hfl.congr fun x hx => ?_
    have : ∃ d ∈ A ++ B, d.use = none ∧ d.off = x := by
      rcases List.mem_append.1 hx with hx | hx
      · obtain ⟨d, hd, he⟩ := mem_frees.1 hx; exact ⟨d, by simp [hd], he⟩
      · obtain ⟨d, hd, he⟩ := mem_frees.1 hx; exact ⟨d, by simp [hd], he⟩
    obtain ⟨d, hd, hdn, rfl⟩ := this
    rw [← rnext d (mem_split.2 (Or.inr hd))]
    refine (p6 d (mem_split.2 (Or.inr hd)) fun hdl => ?_).symm
    obtain ⟨e, he, v, hv, hee⟩ := mem_useds.1 (h.perm.mem_iff.1 (by simp [hdl] : d.off ∈ l1 ++ c.off :: l2))
    have : e = d := nodup_map_inj hco.offs_nodup he (mem_split.2 (Or.inr hd)) hee
    subst this
    rw [hdn] at hv; cases hv
  · rw [Links.append]
    refine ⟨_, p4, hu2.congr fun x hx => ?_⟩
    obtain ⟨d, hd, rfl⟩ := hmem' x (by simp [hx])
    refine (p6 d hd fun hdl => ?_).symm
    exact hnd'.2.2 _ hdl _ (by simp [hx]) rfl
  · have hp := h.perm
    rw [useds_append, useds_some hu] at hp
    have hp' := (List.perm_middle.symm.trans hp).trans List.perm_middle
    have hp'' := List.Perm.cons_inv hp'
    rw [useds_append, useds_none (c := c0) rfl]
    exact hp''
  · have hk1 : Keep m m1 (A ++ B) := by
      intro d hd x g1 g2
      obtain ⟨hd, v, hv⟩ := mem_inUse.1 hd
      exact hcong d hd x (by omega) g2
    refine hk1.trans p3 ?_
    rw [inUse_append, inUse_append, inUse_none (c := c0) rfl]

end Umpire.Shm
