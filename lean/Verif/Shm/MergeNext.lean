import Verif.Shm.MergePrev
set_option autoImplicit false
set_option linter.unusedSimpArgs false
namespace Umpire.Shm
open Umpire.Prog
open Umpire.SizeArith (shmBytes shm_bytes_partial)

theorem mergeNext_mid2 {S lim : Nat} {m : Mem} {A B : List Chunk} {c : Chunk} {Us : List Nat} {next : Nat}
    (h : Mid2 S lim m A c B Us next) :
    ∃ m' T, mergeNext lim c.off next m = .ok ((), m') ∧ Inv S lim m' T Us ∧
      Keep m m' (A ++ c :: B) ∧ inUse T = inUse (A ++ c :: B) := by
  have hco := h.core
  have hcT : c ∈ A ++ c :: B := by simp
  have hb := hco.off hcT
  have hAW := AMax_lt
  have hndF := hco.frees_nodup
  rw [frees_append, frees_none h.none] at hndF
  have hcA : c.off ∉ frees A := fun hx => (List.nodup_append.1 hndF).2.2 _ hx _ (by simp) rfl
  have hcB : c.off ∉ frees B := (List.nodup_cons.1 (List.nodup_append.1 hndF).2.1).1
  have hcU : c.off ∉ Us := fun hx => by
    obtain ⟨d, hd, u, hu, he⟩ := mem_useds.1 (h.perm.mem_iff.1 hx)
    have : d = c := nodup_map_inj hco.offs_nodup hd hcT he
    subst this
    rw [h.none] at hu; cases hu
  have hdrc := (hco.ok c hcT).hdr
  unfold Shm.mergeNext
  rw [bind_run (get_run (by omega) (by omega)), hdrc, w64_of_lt (by omega)]
  -- what `next` is
  by_cases hm : ∃ b B', B = b :: B' ∧ b.use = none
  · obtain ⟨b, B', rfl, hbu⟩ := hm
    have hbT : b ∈ A ++ c :: b :: B' := by simp
    have hbb := hco.off hbT
    have hflB := h.flB
    rw [frees_none hbu] at hflB
    obtain ⟨hnx, hflB⟩ := hflB
    have hadj : c.off + c.size = b.off := by
      have ht := hco.tile
      rw [Tile.append] at ht
      obtain ⟨y, _, t2, t3, _⟩ := ht
      omega
    subst hnx
    have hdrb := (hco.ok b hbT).hdr
    have e2 : w64 (c.size + b.size) = c.size + b.size := w64_of_lt (by omega)
    rw [if_pos ⟨by omega, hadj⟩, bind_run (get_run (by omega) (by omega)), hdrb, e2, bind_run (set_run (by omega) (by omega)),
      bind_run (get_run (by omega) (by omega)), Nat.add_zero, Mem.rd_wr_out (by omega), set_run (by omega) (by omega), Nat.add_zero]
    let c' : Chunk := ⟨c.off, c.size + b.size, none⟩
    generalize hm' : (m.wr (c.off + 24) 8 (c.size + b.size)).wr c.off 8 (m.rd b.off 8) = m'
    have hout : ∀ x, x < c.off ∨ c.off + 8 ≤ x → x < c.off + 24 ∨ c.off + 32 ≤ x → m' x = m x := by
      intro x g1 g2
      rw [← hm', Mem.wr_out (by omega), Mem.wr_out (by omega)]
    have r0 : m'.rd c.off 8 = m.rd b.off 8 := by rw [← hm']; exact rd_wr8 rd8_lt
    have r24 : m'.rd (c.off + 24) 8 = c.size + b.size := by rw [← hm', Mem.rd_wr_out (by omega)]; exact rd_wr8 (by omega)
    have hdA : ∀ d ∈ A ++ B', d ∈ A ++ c :: b :: B' ∧ (d.off + d.size ≤ c.off ∨ b.off + b.size ≤ d.off) := by
      intro d hd
      have ht := hco.tile.pairwise
      rw [List.pairwise_append, List.pairwise_cons, List.pairwise_cons] at ht
      rcases List.mem_append.1 hd with hd | hd
      · exact ⟨by simp [hd], Or.inl (ht.2.2 d hd c (by simp))⟩
      · exact ⟨by simp [hd], Or.inr (ht.2.1.2.1 d hd)⟩
    have hrd : ∀ d ∈ A ++ c :: b :: B', d.off ≠ c.off → m.rd d.off 8 = m'.rd d.off 8 := by
      intro d hd hne
      have := hco.off hd
      refine Mem.rd_congr fun x _ _ => (hout x ?_ ?_).symm
      · rcases hco.apart hd hcT with rfl | hh
        · exact absurd rfl hne
        · omega
      · rcases hco.apart hd hcT with rfl | hh
        · exact absurd rfl hne
        · omega
    have hlow : ∀ a, a + 8 ≤ 80 → m'.rd a 8 = m.rd a 8 := fun a ha => Mem.rd_congr fun x _ _ => hout x (by omega) (by omega)
    refine ⟨m', A ++ c' :: B', rfl, ⟨⟨hco.lim, hco.big, ?_, ?_, ?_, ?_⟩, ?_, ?_, ?_, ?_⟩, ?_, ?_⟩
    · have ht := hco.tile
      rw [Tile.append] at ht ⊢
      obtain ⟨y, t1, t2, t3, t4⟩ := ht
      refine ⟨y, t1, t2, ?_⟩
      show Tile (y + (c.size + b.size)) B' S
      rw [← Nat.add_assoc]
      exact t4
    · intro d hd
      rcases mem_split.1 hd with rfl | hd
      · exact ⟨(hco.ok c hcT).al, by show 40 ≤ c.size + b.size; omega, r24, fun u hu => by cases hu⟩
      · obtain ⟨g1, g2⟩ := hdA d hd
        have := hco.off g1
        exact (hco.ok d g1).congr fun x _ _ => (hout x (by omega) (by omega)).symm
    · rw [hlow 56 (by omega), hco.act, usedBytes_append, usedBytes_append, usedBytes_none h.none, usedBytes_none hbu, usedBytes_none (c := c') rfl]
    · have hnd := hco.nd
      rw [names_append, names_none h.none, names_none hbu] at hnd
      rw [names_append, names_none (c := c') rfl]
      exact hnd
    · rw [hlow 64 (by omega), frees_append, frees_none (c := c') rfl, Links.append]
      refine ⟨c.off, h.flA.congr fun x hx => ?_, rfl, ?_⟩
      · obtain ⟨d, hd, rfl⟩ := frees_mem hx
        exact hrd d (by simp [hd]) fun he => hcA (he ▸ hx)
      · show Links m' (m'.rd c.off 8) (frees B') 0
        rw [r0]
        refine hflB.congr fun x hx => ?_
        obtain ⟨d, hd, rfl⟩ := frees_mem hx
        refine hrd d (by simp [hd]) fun he => hcB ?_
        rw [frees_none hbu, ← he]
        exact List.mem_cons_of_mem _ hx
    · rw [hlow 72 (by omega)]
      refine h.ul.congr fun x hx => ?_
      obtain ⟨d, hd, rfl⟩ := useds_mem (h.perm.mem_iff.1 hx)
      exact hrd d hd fun he => hcU (he ▸ hx)
    · have hp := h.perm
      rw [useds_append, useds_none h.none, useds_none hbu] at hp
      rw [useds_append, useds_none (c := c') rfl]
      exact hp
    · refine h.adjA.free h.adjB.tail h.last ?_
      intro d hd
      cases B' with
      | nil => simp at hd
      | cons e B' =>
        simp at hd
        subst hd
        exact fun he => h.adjB.1 ⟨hbu, he⟩
    · intro d hd x g1 g2
      obtain ⟨hd, u, hu⟩ := mem_inUse.1 hd
      have := hco.off hd
      rcases hco.apart hd hcT with rfl | hh
      · rw [h.none] at hu; cases hu
      · exact hout x (by omega) (by omega)
    · rw [inUse_append, inUse_append, inUse_none h.none, inUse_none hbu, inUse_none (c := c') rfl]
  · have hhead : ∀ d, B.head? = some d → d.use ≠ none := by
      intro d hd hn
      cases B with
      | nil => simp at hd
      | cons e B => simp at hd; subst hd; exact hm ⟨e, B, rfl, hn⟩
    have hneq : ¬ (next ≠ 0 ∧ c.off + c.size = next) := by
      rintro ⟨h0, he⟩
      have hflB := h.flB
      cases hF : frees B with
      | nil => rw [hF] at hflB; exact h0 hflB
      | cons x F =>
        rw [hF] at hflB
        obtain ⟨d, hd, hdn, hdx⟩ := mem_frees.1 (show x ∈ frees B by rw [hF]; simp)
        have hnx : next = x := hflB.1
        cases B with
        | nil => cases hd
        | cons b B =>
          have hbu := hhead b rfl
          have hdB : d ∈ B := by
            rcases List.mem_cons.1 hd with rfl | hd
            · exact absurd hdn hbu
            · exact hd
          have hbT := hco.off (c := b) (by simp)
          have ht := hco.tile.pairwise
          rw [List.pairwise_append, List.pairwise_cons, List.pairwise_cons] at ht
          have g1 := ht.2.1.2.1 d hdB
          have g2 := ht.2.1.1 b (by simp)
          omega
    rw [if_neg hneq, set_run (by omega) (by omega), Nat.add_zero]
    have hnext : next < W := by
      have hflB := h.flB
      cases hF : frees B with
      | nil => rw [hF] at hflB; have : next = 0 := hflB; rw [this]; decide
      | cons x F =>
        rw [hF] at hflB
        obtain ⟨d, hd, hdx⟩ := frees_mem (show x ∈ frees B by rw [hF]; simp)
        have := hco.off (c := d) (by simp [hd])
        have hnx : next = x := hflB.1
        omega
    obtain ⟨k1, k2⟩ := hco.next (loc := c.off) (v := next) (Or.inr ⟨c, hcT, rfl⟩)
    have hrd : ∀ d ∈ A ++ c :: B, d.off ≠ c.off → m.rd d.off 8 = (m.wr c.off 8 next).rd d.off 8 := fun d hd hne =>
      rd_next hco (Or.inr ⟨c, hcT, rfl⟩) ⟨d, hd, rfl⟩ hne
    refine ⟨_, A ++ c :: B, rfl, ⟨k1, ?_, ?_, h.perm, h.adjA.free h.adjB h.last hhead⟩, k2, rfl⟩
    · rw [Mem.rd_wr_out (by omega), frees_append, frees_none h.none, Links.append]
      refine ⟨c.off, h.flA.congr fun x hx => ?_, rfl, ?_⟩
      · obtain ⟨d, hd, rfl⟩ := frees_mem hx
        exact hrd d (by simp [hd]) fun he => hcA (he ▸ hx)
      · rw [rd_wr8 hnext]
        refine h.flB.congr fun x hx => ?_
        obtain ⟨d, hd, rfl⟩ := frees_mem hx
        exact hrd d (by simp [hd]) fun he => hcB (he ▸ hx)
    · rw [Mem.rd_wr_out (by omega)]
      refine h.ul.congr fun x hx => ?_
      obtain ⟨d, hd, rfl⟩ := useds_mem (h.perm.mem_iff.1 hx)
      exact hrd d hd fun he => hcU (he ▸ hx)

theorem insertFree_mid {S lim : Nat} {m : Mem} {A B : List Chunk} {c : Chunk} {Us : List Nat} (h : Mid S lim m A c B Us) :
    ∃ m' T, insertFree lim c.off m = .ok ((), m') ∧ Inv S lim m' T Us ∧ Keep m m' (A ++ c :: B) ∧
      inUse T = inUse (A ++ c :: B) := by
  have hco := h.core
  have hcT : c ∈ A ++ c :: B := by simp
  have hb := hco.off hcT
  have hbig := hco.big
  have hfl := h.fl
  have hcnt := hco.count
  have hlen : (frees A).length < lim + 1 := by
    have : (frees A).length ≤ A.length := by unfold frees; rw [List.length_map]; exact List.length_filter_le _ _
    simp only [List.length_append, List.length_cons] at hcnt
    omega
  have hlt : ∀ x ∈ frees A, 0 < x ∧ x + 8 ≤ lim ∧ x < c.off := by
    intro x hx
    obtain ⟨d, hd, rfl⟩ := frees_mem hx
    have h1 := hco.off (c := d) (by simp [hd])
    have ht := hco.tile.pairwise
    rw [List.pairwise_append] at ht
    have := ht.2.2 d hd c (by simp)
    omega
  unfold Shm.insertFree
  rw [bind_run (ld_run (by omega)), bind_run (findPlace_run hfl hlt (fun x hx => by have := head_frees hco x hx; omega) hlen)]
  rw [Links.append] at hfl
  obtain ⟨next, f1, f2⟩ := hfl
  have hsucc : successor lim (lastOr (frees A) 0) m = .ok (next, m) := by
    unfold successor
    rcases List.eq_nil_or_concat (frees A) with he | ⟨l, y, he⟩
    · rw [he] at f1 ⊢
      rw [if_neg (by simp [lastOr]), ld_run (by omega)]
      have : m.rd 64 8 = next := f1
      rw [this]
    · rw [he, List.concat_eq_append] at f1 ⊢
      have hy := hlt y (by rw [he]; simp)
      rw [lastOr_append, if_pos (by omega), get_run (by omega) (by omega), Nat.add_zero]
      rw [Links.append] at f1
      obtain ⟨z, _, _, g⟩ := f1
      have : m.rd y 8 = next := g
      rw [this]
  rw [bind_run hsucc]
  obtain ⟨m1, A', c', g1, g2, g3, g4⟩ := mergePrev_mid h f1 f2
  rw [bind_run g1]
  obtain ⟨m2, T, k1, k2, k3, k4⟩ := mergeNext_mid2 g2
  exact ⟨m2, T, k1, k2, g3.trans k3 g4.symm, k4.trans g4⟩

end Umpire.Shm
