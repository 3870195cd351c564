import Verif.Shm.Inv
/-!
# The loops of the shared memory resource
-/
set_option autoImplicit false
set_option linter.unusedSimpArgs false
namespace Umpire.Shm
open Umpire.Prog
open Umpire.SizeArith (shmBytes shm_bytes_partial)

theorem putNext_run {lim hd v e : Nat} {m : Mem} {l : List Nat} (hl : Links m (m.rd hd 8) l e) (h80 : 80 ≤ lim)
    (hhd : hd + 8 ≤ 80) (hx : ∀ x ∈ l, 80 ≤ x ∧ x + 8 ≤ lim)
    (hap : ∀ x ∈ l, ∀ y ∈ l, x = y ∨ x + 8 ≤ y ∨ y + 8 ≤ x) (nd : l.Nodup) (hv : v < W) :
    ∃ loc, putNext lim hd (lastOr l 0) v m = .ok ((), m.wr loc 8 v) ∧ (loc = hd ∨ loc ∈ l) ∧
      Links (m.wr loc 8 v) ((m.wr loc 8 v).rd hd 8) l v := by
  rcases List.eq_nil_or_concat l with rfl | ⟨l', y, rfl⟩
  · refine ⟨hd, ?_, Or.inl rfl, rd_wr8 hv⟩
    unfold putNext
    rw [if_neg (by simp [lastOr]), st_run (by omega)]
  · rw [List.concat_eq_append] at *
    have hy := hx y (by simp)
    refine ⟨y, ?_, Or.inr (by simp), ?_⟩
    · unfold putNext
      rw [lastOr_append, if_pos (by omega), set_run (by omega) (by omega)]
      rfl
    · rw [Mem.rd_wr_out (by omega)]
      rw [Links.append] at hl ⊢
      obtain ⟨x, h1, h2⟩ := hl
      refine ⟨x, h1.congr fun z hz => ?_, h2.1, ?_⟩
      · rw [Mem.rd_wr_out]
        have hne : z ≠ y := by
          rintro rfl
          rw [List.nodup_append] at nd
          exact nd.2.2 z hz z (by simp) rfl
        rcases hap z (by simp [hz]) y (by simp) with h | h | h
        · exact absurd h hne
        · exact Or.inl h
        · exact Or.inr h
      · exact rd_wr8 hv

theorem findPrev_run {lim blk e : Nat} {m : Mem} {l r : List Nat} {o prev fuel : Nat} (hl : Links m o (l ++ blk :: r) e)
    (hx : ∀ x ∈ l, 0 < x ∧ x + 8 ≤ lim ∧ x ≠ blk) (hf : l.length < fuel) :
    findPrev lim blk fuel o prev m = .ok (lastOr l prev, m) := by
  induction l generalizing o prev fuel with
  | nil =>
    cases fuel with
    | zero => simp at hf
    | succ fuel =>
      unfold findPrev
      rw [if_pos (Or.inr hl.1)]
      rfl
  | cons x l ih =>
    cases fuel with
    | zero => simp at hf
    | succ fuel =>
      obtain ⟨rfl, h2⟩ := hl
      have := hx o (by simp)
      unfold findPrev
      rw [if_neg (by omega), bind_run (get_run (by omega) (by omega)), lastOr_cons]
      exact ih h2 (fun y hy => hx y (by simp [hy])) (by simp at hf; omega)

theorem findPlace_run {lim blk : Nat} {m : Mem} {l r : List Nat} {o prev fuel : Nat} (hl : Links m o (l ++ r) 0)
    (hx : ∀ x ∈ l, 0 < x ∧ x + 8 ≤ lim ∧ x < blk) (hr : ∀ x, r.head? = some x → blk ≤ x) (hf : l.length < fuel) :
    findPlace lim blk fuel o prev m = .ok (lastOr l prev, m) := by
  induction l generalizing o prev fuel with
  | nil =>
    cases fuel with
    | zero => simp at hf
    | succ fuel =>
      unfold findPlace
      rw [if_pos]
      · rfl
      · cases r with
        | nil => exact Or.inl hl
        | cons x r => rw [hl.1]; exact Or.inr (hr x rfl)
  | cons x l ih =>
    cases fuel with
    | zero => simp at hf
    | succ fuel =>
      obtain ⟨rfl, h2⟩ := hl
      have := hx o (by simp)
      unfold findPlace
      rw [if_neg (by omega), bind_run (get_run (by omega) (by omega)), lastOr_cons]
      exact ih h2 (fun y hy => hx y (by simp [hy])) (by simp at hf; omega)

theorem findExisting_run {S lim : Nat} {m : Mem} {T : List Chunk} (hc : Core S lim m T) {name : List Nat}
    {l : List Nat} {o fuel : Nat} (hl : Links m o l 0) (hx : ∀ x ∈ l, x ∈ useds T) (hf : l.length < fuel) :
    (findExisting lim name fuel o m = .ok (0, m) ∧ ∀ c ∈ T, c.off ∈ l → ∀ u, c.use = some u → u.name ≠ name) ∨
    ∃ c ∈ T, ∃ u, c.use = some u ∧ u.name = name ∧ findExisting lim name fuel o m = .ok (c.off, m) := by
  induction l generalizing o fuel with
  | nil =>
    cases fuel with
    | zero => simp at hf
    | succ fuel =>
      refine Or.inl ⟨?_, by simp⟩
      unfold findExisting
      rw [if_pos (show o = 0 from hl)]
      rfl
  | cons x l ih =>
    cases fuel with
    | zero => simp at hf
    | succ fuel =>
      obtain ⟨rfl, h2⟩ := hl
      obtain ⟨c, hcT, u, hu, rfl⟩ := mem_useds.1 (hx o (by simp))
      obtain ⟨b1, b2, b3, b4, b5⟩ := hc.off hcT
      have hU := (hc.ok c hcT).use u hu
      have hroom := hU.room
      have hno := hU.nameOff
      have hrd : readStr lim (lim + 1) (m.rd (c.off + 8) 8) m = .ok (u.name, m) := by
        rw [hno]
        exact readStr_run hU.name hU.str (by omega) (by omega)
      unfold findExisting
      rw [if_neg (by omega), bind_run (get_run (by omega) (by omega)), if_neg (by omega), bind_run hrd]
      by_cases hn : name = u.name
      · rw [if_pos hn]
        exact Or.inr ⟨c, hcT, u, hu, hn.symm, rfl⟩
      · rw [if_neg hn, bind_run (get_run (by omega) (by omega)), Nat.add_zero]
        rcases ih h2 (fun y hy => hx y (by simp [hy])) (by simp at hf; omega) with ⟨h3, h4⟩ | ⟨d, hd, v, h3, h4, h5⟩
        · refine Or.inl ⟨h3, fun d hd hm v hv => ?_⟩
          rcases List.mem_cons.1 hm with he | hm
          · have : d = c := nodup_map_inj hc.offs_nodup hd hcT he
            subst this
            rw [hu] at hv
            injection hv with hv
            subst hv
            exact fun h => hn h.symm
          · exact h4 d hd hm v hv
        · exact Or.inr ⟨d, hd, v, h3, h4, h5⟩

theorem findUsable_run {S lim size : Nat} {m : Mem} {T : List Chunk} (hc : Core S lim m T) {L : List Chunk}
    (hL : ∀ c ∈ L, c ∈ T) {iter iterPrev best prev fuel : Nat} (hl : Links m iter (L.map (·.off)) 0)
    (hb : best = 0 ∨ ∃ c ∈ T, c.off = best) (hf : L.length < fuel) :
    ∃ b p, findUsable lim size fuel iter iterPrev best prev m = .ok ((b, p), m) ∧
      ((b = best ∧ p = prev ∧ (best = 0 → ∀ c ∈ L, c.size < size)) ∨
       ∃ L1 c L2, L = L1 ++ c :: L2 ∧ b = c.off ∧ p = lastOr (L1.map (·.off)) iterPrev ∧ size ≤ c.size) := by
  induction L generalizing iter iterPrev best prev fuel with
  | nil =>
    cases fuel with
    | zero => simp at hf
    | succ fuel =>
      refine ⟨best, prev, ?_, Or.inl ⟨rfl, rfl, by simp⟩⟩
      unfold findUsable
      rw [if_pos (show iter = 0 from hl)]
      rfl
  | cons c L ih =>
    cases fuel with
    | zero => simp at hf
    | succ fuel =>
      obtain ⟨h1, h2⟩ := hl
      have h1' : iter = c.off := h1
      subst h1'
      have hcT := hL c (by simp)
      obtain ⟨b1, b2, b3, b4, b5⟩ := hc.off hcT
      have hs := (hc.ok c hcT).hdr
      -- the comparison
      have hbet : ∃ b, better lim (m.rd (c.off + 24) 8) best size m = .ok (b, m) ∧
          (b = true → size ≤ c.size) ∧ (b = false → best = 0 → c.size < size) := by
        unfold better
        rw [hs]
        by_cases hle : c.size ≥ size
        · rw [if_pos hle]
          rcases hb with rfl | ⟨d, hd, rfl⟩
          · rw [if_pos rfl]
            exact ⟨true, rfl, fun _ => hle, by simp⟩
          · obtain ⟨d1, d2, d3, d4, d5⟩ := hc.off hd
            rw [if_neg (by omega), bind_run (get_run (by omega) (by omega))]
            exact ⟨_, rfl, fun _ => hle, fun _ h => by omega⟩
        · rw [if_neg hle]
          exact ⟨false, rfl, by simp, fun _ _ => by omega⟩
      obtain ⟨b, hb1, hb2, hb3⟩ := hbet
      unfold findUsable
      rw [if_neg (by omega), bind_run (get_run (by omega) (by omega)), bind_run hb1]
      cases b with
      | true =>
        rw [if_pos rfl]
        by_cases he : m.rd (c.off + 24) 8 = size
        · rw [if_pos he]
          exact ⟨_, _, rfl, Or.inr ⟨[], c, L, rfl, rfl, rfl, hb2 rfl⟩⟩
        · rw [if_neg he, bind_run (get_run (by omega) (by omega)), Nat.add_zero]
          obtain ⟨b, p, h3, h4⟩ := ih (iter := m.rd c.off 8) (iterPrev := c.off) (best := c.off) (prev := iterPrev) (fuel := fuel)
            (fun d hd => hL d (by simp [hd])) h2 (Or.inr ⟨c, hcT, rfl⟩) (by simp at hf; omega)
          refine ⟨b, p, h3, Or.inr ?_⟩
          rcases h4 with ⟨rfl, rfl, h5⟩ | ⟨L1, d, L2, rfl, rfl, rfl, h5⟩
          · exact ⟨[], c, L, rfl, rfl, rfl, hb2 rfl⟩
          · exact ⟨c :: L1, d, L2, rfl, rfl, by rw [List.map_cons, lastOr_cons], h5⟩
      | false =>
        rw [if_neg (by simp), bind_run (get_run (by omega) (by omega)), Nat.add_zero]
        obtain ⟨b, p, h3, h4⟩ := ih (iter := m.rd c.off 8) (iterPrev := c.off) (best := best) (prev := prev) (fuel := fuel)
          (fun d hd => hL d (by simp [hd])) h2 hb (by simp at hf; omega)
        refine ⟨b, p, h3, ?_⟩
        rcases h4 with ⟨rfl, rfl, h5⟩ | ⟨L1, d, L2, rfl, rfl, rfl, h5⟩
        · refine Or.inl ⟨rfl, rfl, fun h0 d hd => ?_⟩
          rcases List.mem_cons.1 hd with rfl | hd
          · exact hb3 rfl h0
          · exact h5 h0 d hd
        · exact Or.inr ⟨c :: L1, d, L2, rfl, rfl, by rw [List.map_cons, lastOr_cons], h5⟩

end Umpire.Shm
