import Verif.Shm.Unlink
set_option autoImplicit false
set_option linter.unusedSimpArgs false
namespace Umpire.Shm
open Umpire.Prog
open Umpire.SizeArith (shmBytes shm_bytes_partial)

/-- The block `c` is linked behind its predecessor; `next` is its successor. -/
structure Mid2 (S lim : Nat) (m : Mem) (A : List Chunk) (c : Chunk) (B : List Chunk) (Us : List Nat) (next : Nat) : Prop where
  core : Core S lim m (A ++ c :: B)
  none : c.use = none
  flA : Links m (m.rd 64 8) (frees A) c.off
  flB : Links m next (frees B) 0
  ul : Links m (m.rd 72 8) Us 0
  perm : Us.Perm (useds (A ++ c :: B))
  adjA : NoAdj A
  adjB : NoAdj B
  last : ∀ d, A.getLast? = some d → d.use ≠ .none

theorem head_frees {S lim : Nat} {m : Mem} {A B : List Chunk} {c : Chunk} (h : Core S lim m (A ++ c :: B)) :
    ∀ x, (frees B).head? = some x → c.off + c.size ≤ x := by
  intro x hx
  obtain ⟨d, hd, rfl⟩ := frees_mem (List.mem_of_mem_head? hx)
  have ht := h.tile.pairwise
  rw [List.pairwise_append, List.pairwise_cons] at ht
  exact ht.2.1.1 d hd

theorem mergePrev_mid {S lim : Nat} {m : Mem} {A B : List Chunk} {c : Chunk} {Us : List Nat} (h : Mid S lim m A c B Us) {next : Nat}
    (hA : Links m (m.rd 64 8) (frees A) next) (hB : Links m next (frees B) 0) :
    ∃ m' A' c', mergePrev lim c.off (lastOr (frees A) 0) m = .ok (c'.off, m') ∧ Mid2 S lim m' A' c' B Us next ∧
      Keep m m' (A ++ c :: B) ∧ inUse (A' ++ c' :: B) = inUse (A ++ c :: B) := by
  have hco := h.core
  have hcT : c ∈ A ++ c :: B := by simp
  have hb := hco.off hcT
  have hAW := AMax_lt
  have hndF := hco.frees_nodup
  rw [frees_append, frees_none h.none] at hndF
  have hndA : (frees A).Nodup := (List.nodup_append.1 hndF).1
  have hdisj : ∀ x ∈ frees B, x ∉ frees A := fun x hx hy => (List.nodup_append.1 hndF).2.2 x hy x (by simp [hx]) rfl
  have hcA : c.off ∉ frees A := fun hx => (List.nodup_append.1 hndF).2.2 _ hx _ (by simp) rfl
  -- not merged
  have hno : (∀ d, A.getLast? = some d → d.use ≠ none) → Shm.mergePrev lim c.off (lastOr (frees A) 0) m =
      (putNext lim 64 (lastOr (frees A) 0) c.off >>= fun _ => pure c.off) m → ∃ m' A' c', Shm.mergePrev lim c.off (lastOr (frees A) 0) m = .ok (c'.off, m') ∧
      Mid2 S lim m' A' c' B Us next ∧ Keep m m' (A ++ c :: B) ∧ inUse (A' ++ c' :: B) = inUse (A ++ c :: B) := by
    intro hlast heq
    obtain ⟨m', p1, p2, p3, p4, p5, p6, _, _⟩ := hco.putNext (v := c.off) hA (Or.inl rfl)
      (fun x hx => by obtain ⟨d, hd, he⟩ := frees_mem hx; exact ⟨d, by simp [hd], he⟩) hndA (by omega)
    refine ⟨m', A, c, ?_, ⟨p2, h.none, p4, ?_, ?_, h.perm, h.adjA, h.adjB, hlast⟩, p3, rfl⟩
    · rw [heq, bind_run p1]; rfl
    · refine hB.congr fun x hx => ?_
      obtain ⟨d, hd, rfl⟩ := frees_mem hx
      exact (p6 d (by simp [hd]) (hdisj _ hx)).symm
    · rw [p5 72 (by omega) (by omega)]
      refine h.ul.congr fun x hx => ?_
      obtain ⟨d, hd, u, hu, rfl⟩ := mem_useds.1 (h.perm.mem_iff.1 hx)
      refine (p6 d hd fun hdl => ?_).symm
      obtain ⟨e, he, hn, hee⟩ := mem_frees.1 hdl
      have : e = d := nodup_map_inj hco.offs_nodup (by simp [he]) hd hee
      subst this
      rw [hn] at hu; cases hu
  rcases List.eq_nil_or_concat A with rfl | ⟨A1, a, rfl⟩
  · refine hno (by simp) ?_
    unfold Shm.mergePrev
    rw [if_neg (by simp [frees, lastOr])]
  · rw [List.concat_eq_append] at *
    have haT : a ∈ (A1 ++ [a]) ++ c :: B := by simp
    have hba := hco.off haT
    have hadj : a.off + a.size = c.off := by
      have ht := hco.tile
      rw [List.append_assoc, Tile.append] at ht
      obtain ⟨y, _, t2, t3, _⟩ := ht
      omega
    cases hau : a.use with
    | some u =>
      refine hno (by simp [hau]) ?_
      unfold Shm.mergePrev
      by_cases hz : lastOr (frees (A1 ++ [a])) 0 = 0
      · rw [if_neg (by omega)]
      · rw [if_pos hz]
        have hm : lastOr (frees (A1 ++ [a])) 0 ∈ frees (A1 ++ [a]) := by
          rcases List.eq_nil_or_concat (frees (A1 ++ [a])) with he | ⟨l, y, he⟩
          · rw [he] at hz; simp [lastOr] at hz
          · rw [he, List.concat_eq_append, lastOr_append]; simp
        obtain ⟨d, hd, hdn, he⟩ := mem_frees.1 hm
        have hdT : d ∈ (A1 ++ [a]) ++ c :: B := by simp only [List.mem_append] at hd ⊢; exact Or.inl hd
        have hbd := hco.off hdT
        rw [← he, bind_run (get_run (by omega) (by omega)), (hco.ok d hdT).hdr, if_neg]
        have hne : d ≠ a := by rintro rfl; rw [hau] at hdn; cases hdn
        have hdA : d ∈ A1 := by
          rcases List.mem_append.1 hd with h | h
          · exact h
          · exact absurd (List.mem_singleton.1 h) hne
        have ht := hco.tile.pairwise
        rw [List.append_assoc, List.pairwise_append] at ht
        have := ht.2.2 d hdA a (by simp)
        rw [w64_of_lt (by omega)]
        omega
    | none =>
      have hfr : frees (A1 ++ [a]) = frees A1 ++ [a.off] := by rw [frees_append, frees_none hau]; rfl
      rw [hfr, lastOr_append]
      have hdra := (hco.ok a haT).hdr
      have hdrc := (hco.ok c hcT).hdr
      have e1 : w64 (a.off + a.size) = c.off := by rw [w64_of_lt (by omega)]; exact hadj
      have e2 : w64 (a.size + c.size) = a.size + c.size := w64_of_lt (by omega)
      let c' : Chunk := ⟨a.off, a.size + c.size, .none⟩
      refine ⟨m.wr (a.off + 24) 8 (a.size + c.size), A1, c', ?_, ?_, ?_, ?_⟩
      · unfold Shm.mergePrev
        rw [if_pos (by omega), bind_run (get_run (by omega) (by omega)), hdra, e1, if_pos rfl, bind_run (get_run (by omega) (by omega)), hdrc, e2,
          bind_run (set_run (by omega) (by omega))]
        rfl
      · have hdA : ∀ d ∈ A1 ++ B, d ∈ (A1 ++ [a]) ++ c :: B ∧ (d.off + d.size ≤ a.off ∨ c.off + c.size ≤ d.off) := by
          intro d hd
          have ht := hco.tile.pairwise
          rcases List.mem_append.1 hd with hd | hd
          · refine ⟨by simp [hd], ?_⟩
            rw [List.append_assoc, List.pairwise_append] at ht
            exact Or.inl (ht.2.2 d hd a (by simp))
          · refine ⟨by simp [hd], ?_⟩
            rw [List.pairwise_append, List.pairwise_cons] at ht
            exact Or.inr (ht.2.1.1 d hd)
        have hrd : ∀ d ∈ (A1 ++ [a]) ++ c :: B, m.rd d.off 8 = (m.wr (a.off + 24) 8 (a.size + c.size)).rd d.off 8 := by
          intro d hd
          have := hco.off hd
          rw [Mem.rd_wr_out]
          rcases hco.apart hd haT with rfl | hh <;> omega
        have hfA : Links m (m.rd 64 8) (frees A1) a.off := by
          rw [hfr, Links.append] at hA
          obtain ⟨y, g1, g2⟩ := hA
          rw [← g2.1]; exact g1
        refine ⟨⟨hco.lim, hco.big, ?_, ?_, ?_, ?_⟩, rfl, ?_, ?_, ?_, ?_, h.adjA.left, h.adjB, ?_⟩
        · have ht := hco.tile
          rw [List.append_assoc, Tile.append] at ht
          obtain ⟨y, t1, t2, t3, t4⟩ := ht
          rw [Tile.append]
          refine ⟨y, t1, t2, ?_⟩
          show Tile (y + (a.size + c.size)) B S
          rw [← Nat.add_assoc]
          exact t4
        · intro d hd
          rcases mem_split.1 hd with rfl | hd
          · exact ⟨(hco.ok a haT).al, by show 40 ≤ a.size + c.size; omega, rd_wr8 (by omega), fun u hu => by cases hu⟩
          · obtain ⟨g1, g2⟩ := hdA d hd
            have := hco.off g1
            exact (hco.ok d g1).congr fun x _ _ => (Mem.wr_out (by omega)).symm
        · rw [Mem.rd_wr_out (by omega), hco.act, usedBytes_append, usedBytes_append, usedBytes_append, usedBytes_none h.none,
            usedBytes_none (c := c') rfl, usedBytes_none hau]
          simp [usedBytes]
        · have hnd := hco.nd
          rw [names_append, names_append, names_none h.none, names_none hau] at hnd
          rw [names_append, names_none (c := c') rfl]
          simpa [names] using hnd
        · show Links _ ((m.wr (a.off + 24) 8 (a.size + c.size)).rd 64 8) (frees A1) a.off
          rw [Mem.rd_wr_out (by omega)]
          refine hfA.congr fun x hx => ?_
          obtain ⟨d, hd, rfl⟩ := frees_mem hx
          exact hrd d (by simp [hd])
        · refine hB.congr fun x hx => ?_
          obtain ⟨d, hd, rfl⟩ := frees_mem hx
          exact hrd d (by simp [hd])
        · rw [Mem.rd_wr_out (by omega)]
          refine h.ul.congr fun x hx => ?_
          obtain ⟨d, hd, rfl⟩ := useds_mem (h.perm.mem_iff.1 hx)
          exact hrd d hd
        · have hp := h.perm
          rw [useds_append, useds_append, useds_none h.none, useds_none hau] at hp
          rw [useds_append, useds_none (c := c') rfl]
          simpa [useds] using hp
        · have hh := h.adjA
          exact ((hh).around hau).1
      · intro d hd x g1 g2
        obtain ⟨hd, u, hu⟩ := mem_inUse.1 hd
        rw [Mem.wr_out]
        have := hco.off hd
        rcases hco.apart hd haT with rfl | hh
        · rw [hau] at hu; cases hu
        · omega
      · rw [inUse_append, inUse_append, inUse_append, inUse_none h.none, inUse_none (c := c') rfl, inUse_none hau]
        simp [inUse]

end Umpire.Shm
