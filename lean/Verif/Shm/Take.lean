import Verif.Shm.Blocks
set_option autoImplicit false
set_option linter.unusedSimpArgs false
namespace Umpire.Shm
open Umpire.Prog
open Umpire.SizeArith (shmBytes shm_bytes_partial)

/-- The other blocks lie before or after. -/
theorem Core.others {S lim : Nat} {m : Mem} {A B : List Chunk} {c : Chunk} (h : Core S lim m (A ++ c :: B)) :
    ∀ d ∈ A ++ B, d.off + d.size ≤ c.off ∨ c.off + c.size ≤ d.off := by
  intro d hd
  have ht := h.tile.pairwise
  rw [List.pairwise_append, List.pairwise_cons] at ht
  rcases List.mem_append.1 hd with hd | hd
  · exact Or.inl (ht.2.2 d hd c (by simp))
  · exact Or.inr (ht.2.1.1 d hd)

theorem mem_split {A B : List Chunk} {c d : Chunk} : d ∈ A ++ c :: B ↔ d = c ∨ d ∈ A ++ B := by
  simp only [List.mem_append, List.mem_cons]
  constructor
  · rintro (h | h | h)
    · exact Or.inr (Or.inl h)
    · exact Or.inl h
    · exact Or.inr (Or.inr h)
  · rintro (h | h | h)
    · exact Or.inr (Or.inl h)
    · exact Or.inl h
    · exact Or.inr (Or.inr h)

/-- Only the block `c` and the segment header differ. -/
theorem Core.local {S lim : Nat} {m m' : Mem} {A B : List Chunk} {c c' : Chunk} (h : Core S lim m (A ++ c :: B))
    (ho : c'.off = c.off) (hs : c'.size = c.size) (hc : COk m' c') (hx : ∀ d ∈ A ++ B, ∀ x, d.off + 8 ≤ x → x < d.off + d.size → m' x = m x)
    (ha : m'.rd 56 8 = 80 + usedBytes (A ++ c' :: B)) (hn : (names (A ++ c' :: B)).Nodup) : Core S lim m' (A ++ c' :: B) := by
  refine ⟨h.lim, h.big, ?_, ?_, ha, hn⟩
  · have ht := h.tile
    rw [Tile.append] at ht ⊢
    obtain ⟨y, t1, t2, t3⟩ := ht
    exact ⟨y, t1, ho.trans t2, by rw [hs]; exact t3⟩
  · intro d hd
    rcases mem_split.1 hd with rfl | hd
    · exact hc
    · refine (h.ok d (mem_split.2 (Or.inr hd))).congr fun x h1 h2 => (hx d hd x h1 h2).symm

theorem Mid.take {S lim : Nat} {m : Mem} {A B : List Chunk} {c : Chunk} {Us : List Nat} (h : Mid S lim m A c B Us)
    {name : List Nat} {req : Nat} (hn : NameOk name) (hl : name.length + 17 < W) (hr : req + 16 < W)
    (h1 : 48 + shmBytes req + shmBytes (name.length + 1) ≤ c.size)
    (h2 : c.size < 48 + shmBytes req + shmBytes (name.length + 1) + 40) (hnew : name ∉ names (A ++ c :: B)) :
    ∃ m', take lim c.off name req m = .ok (c.off + 48, m') ∧
      Inv S lim m' (A ++ ⟨c.off, c.size, some ⟨req, name, 1⟩⟩ :: B) (c.off :: Us) ∧ Keep m m' (A ++ c :: B) := by
  have hco := h.core
  have hcT : c ∈ A ++ c :: B := by simp
  have hb := hco.off hcT
  have hAW := AMax_lt
  have hdr := (hco.ok c hcT).hdr
  have s1 := shm_bytes_partial hr
  have s2 := shm_bytes_partial (n := name.length + 1) (by omega)
  have hotr := hco.others
  -- the total
  have hub : usedBytes (A ++ c :: B) + c.size ≤ S - 80 := by
    have key : ∀ (T : List Chunk) (o : Nat), Tile o T S → o + usedBytes T ≤ S := by
      intro T
      induction T with
      | nil => intro o h; exact Nat.le_of_eq h
      | cons d T ih =>
        intro o h
        have := ih _ h.2
        cases hd : d.use with
        | none => rw [usedBytes_none hd]; omega
        | some u => rw [usedBytes_some hd]; omega
    have ht : Tile 80 (A ++ ⟨c.off, c.size, some ⟨0, [], 0⟩⟩ :: B) S := by
      have ht := hco.tile
      rw [Tile.append] at ht ⊢
      exact ht
    have := key _ _ ht
    rw [usedBytes_append, usedBytes_some rfl] at this
    rw [usedBytes_append, usedBytes_none h.none]
    simp only at this
    omega
  have hw1 : w64 (80 + usedBytes (A ++ c :: B) + c.size) = 80 + usedBytes (A ++ c :: B) + c.size := w64_of_lt (by omega)
  have hw2 : w64 (c.off + 48) = c.off + 48 := w64_of_lt (by omega)
  have hw3 : w64 (c.off + 48 + shmBytes req) = c.off + 48 + shmBytes req := w64_of_lt (by omega)
  unfold Shm.take
  rw [bind_run (get_run (by omega) (by omega)), hdr, bind_run (ld_run (by omega)), hco.act, hw1, hw2, hw3,
    bind_run (st_run (by omega)), bind_run (ld_run (by omega)), Mem.rd_wr_out (by omega),
    bind_run (set_run (by omega) (by omega)), bind_run (st_run (by omega)), bind_run (set_run (by omega) (by omega)),
    bind_run (set_run (by omega) (by omega)), bind_run (set_run (by omega) (by omega))]
  simp only [Nat.add_zero]
  generalize hm1 : ((((((m.wr 56 8 (80 + usedBytes (A ++ c :: B) + c.size)).wr c.off 8 (m.rd 72 8)).wr 72 8 c.off).wr
    (c.off + 16) 8 (c.off + 48)).wr (c.off + 8) 8 (c.off + 48 + shmBytes req)).wr (c.off + 32) 8 1) = m1
  obtain ⟨m', w1, w2, w3⟩ := writeStr_run (lim := lim) (m := m1) (a := c.off + 48 + shmBytes req) hn (by omega)
  rw [bind_run w1]
  have hout : ∀ x, x < 56 ∨ 64 ≤ x → x < 72 ∨ 80 ≤ x → x < c.off ∨ c.off + c.size ≤ x → m' x = m x := by
    intro x g1 g2 g3
    rw [w3 x (by omega), ← hm1, Mem.wr_out (by omega), Mem.wr_out (by omega), Mem.wr_out (by omega), Mem.wr_out (by omega),
      Mem.wr_out (by omega), Mem.wr_out (by omega)]
  have hin : ∀ a, a + 8 ≤ c.off + 40 → m'.rd a 8 = m1.rd a 8 := fun a ha =>
    Mem.rd_congr fun x _ _ => w3 x (by omega)
  have r56 : m'.rd 56 8 = 80 + usedBytes (A ++ c :: B) + c.size := by
    rw [hin 56 (by omega), ← hm1, Mem.rd_wr_out (by omega), Mem.rd_wr_out (by omega), Mem.rd_wr_out (by omega),
      Mem.rd_wr_out (by omega), Mem.rd_wr_out (by omega)]
    exact rd_wr8 (by omega)
  have r64 : m'.rd 64 8 = m.rd 64 8 := Mem.rd_congr fun x _ _ => hout x (by omega) (by omega) (by omega)
  have r72 : m'.rd 72 8 = c.off := by
    rw [hin 72 (by omega), ← hm1, Mem.rd_wr_out (by omega), Mem.rd_wr_out (by omega), Mem.rd_wr_out (by omega)]
    exact rd_wr8 (by omega)
  have rc0 : m'.rd c.off 8 = m.rd 72 8 := by
    rw [hin _ (by omega), ← hm1, Mem.rd_wr_out (by omega), Mem.rd_wr_out (by omega), Mem.rd_wr_out (by omega), Mem.rd_wr_out (by omega)]
    exact rd_wr8 rd8_lt
  have rc8 : m'.rd (c.off + 8) 8 = c.off + 48 + shmBytes req := by
    rw [hin _ (by omega), ← hm1, Mem.rd_wr_out (by omega)]
    exact rd_wr8 (by omega)
  have rc16 : m'.rd (c.off + 16) 8 = c.off + 48 := by
    rw [hin _ (by omega), ← hm1, Mem.rd_wr_out (by omega), Mem.rd_wr_out (by omega)]
    exact rd_wr8 (by omega)
  have rc24 : m'.rd (c.off + 24) 8 = c.size := by
    rw [hin _ (by omega), ← hm1, Mem.rd_wr_out (by omega), Mem.rd_wr_out (by omega), Mem.rd_wr_out (by omega),
      Mem.rd_wr_out (by omega), Mem.rd_wr_out (by omega), Mem.rd_wr_out (by omega)]
    exact hdr
  have rc32 : m'.rd (c.off + 32) 8 = 1 := by
    rw [hin _ (by omega), ← hm1]
    exact rd_wr8 (by decide)
  have hcong : ∀ d ∈ A ++ B, ∀ x, d.off ≤ x → x < d.off + d.size → m' x = m x := by
    intro d hd x g1 g2
    have := hotr d hd
    have := hco.off (c := d) (mem_split.2 (Or.inr hd))
    exact hout x (by omega) (by omega) (by omega)
  have hrd : ∀ d ∈ A ++ B, m'.rd d.off 8 = m.rd d.off 8 := fun d hd =>
    Mem.rd_congr fun x g1 g2 => hcong d hd x g1 (by have := hco.off (c := d) (mem_split.2 (Or.inr hd)); omega)
  let c' : Chunk := ⟨c.off, c.size, some ⟨req, name, 1⟩⟩
  have hcore : Core S lim m' (A ++ c' :: B) := by
    refine hco.local rfl rfl ?_ (fun d hd x g1 g2 => hcong d hd x (by omega) g2) ?_ ?_
    · refine ⟨(hco.ok c hcT).al, by show 40 ≤ c.size; omega, rc24, fun u hu => ?_⟩
      injection hu with hu
      subst hu
      exact ⟨hn, hr, hl, h1, h2, ⟨Nat.le_refl _, by show 1 < W; decide⟩, rc8, rc16, rc32, w2⟩
    · rw [r56, usedBytes_append, usedBytes_append, usedBytes_none h.none, usedBytes_some (c := c') rfl]
      show _ = 80 + (usedBytes A + (c.size + usedBytes B))
      omega
    · have hnd := hco.nd
      rw [names_append, names_none h.none] at hnd hnew
      rw [names_append, names_some (c := c') rfl]
      rw [List.nodup_append] at hnd ⊢
      rw [List.mem_append] at hnew
      refine ⟨hnd.1, List.nodup_cons.2 ⟨fun hh => hnew (Or.inr hh), hnd.2.1⟩, fun x hx y hy => ?_⟩
      rcases List.mem_cons.1 hy with rfl | hy
      · rintro rfl; exact hnew (Or.inl hx)
      · exact hnd.2.2 x hx y hy
  have hUs : ∀ x ∈ Us, ∃ d ∈ A ++ B, d.off = x := fun x hx => by
    obtain ⟨d, hd, u, hu, he⟩ := mem_useds.1 (h.perm.mem_iff.1 hx)
    rcases mem_split.1 hd with rfl | hd
    · rw [h.none] at hu; cases hu
    · exact ⟨d, hd, he⟩
  refine ⟨m', ?_, ⟨hcore, ?_, ?_, ?_, h.adjA.join h.adjB (by simp)⟩, ?_⟩
  · rw [get_run (by omega) (by omega), rc16]
  · rw [frees_append, frees_some (c := c') rfl, r64]
    refine h.fl.congr fun x hx => ?_
    have : ∃ d ∈ A ++ B, d.off = x := by
      rcases List.mem_append.1 hx with hx | hx
      · obtain ⟨d, hd, he⟩ := frees_mem hx; exact ⟨d, by simp [hd], he⟩
      · obtain ⟨d, hd, he⟩ := frees_mem hx; exact ⟨d, by simp [hd], he⟩
    obtain ⟨d, hd, rfl⟩ := this
    exact (hrd d hd).symm
  · refine ⟨r72, ?_⟩
    rw [rc0]
    refine h.ul.congr fun x hx => ?_
    obtain ⟨d, hd, rfl⟩ := hUs x hx
    exact (hrd d hd).symm
  · have hp := h.perm
    rw [useds_append, useds_none h.none] at hp
    rw [useds_append, useds_some (c := c') rfl]
    exact (hp.cons c.off).trans (List.perm_middle.symm)
  · intro d hd x g1 g2
    obtain ⟨hd, u, hu⟩ := mem_inUse.1 hd
    rcases mem_split.1 hd with rfl | hd
    · rw [h.none] at hu; cases hu
    · exact hcong d hd x (by omega) g2

end Umpire.Shm
