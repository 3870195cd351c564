import Verif.Shm.Loops
/-!
# Splitting, taking, returning and merging blocks
-/
set_option autoImplicit false
set_option linter.unusedSimpArgs false
namespace Umpire.Shm
open Umpire.Prog
open Umpire.SizeArith (shmBytes shm_bytes_partial)

/-- The blocks in use. -/
def inUse (T : List Chunk) : List Chunk := T.filter fun c => c.use.isSome

theorem inUse_append {A B : List Chunk} : inUse (A ++ B) = inUse A ++ inUse B := by simp [inUse]

theorem inUse_none {c : Chunk} {T : List Chunk} (h : c.use = none) : inUse (c :: T) = inUse T := by simp [inUse, h]

theorem inUse_some {c : Chunk} {T : List Chunk} {u : Use} (h : c.use = some u) : inUse (c :: T) = c :: inUse T := by simp [inUse, h]

theorem mem_inUse {c : Chunk} {T : List Chunk} : c ∈ inUse T ↔ c ∈ T ∧ ∃ u, c.use = some u := by
  simp [inUse, Option.isSome_iff_exists]

/-- The contents of the blocks in use, beyond their headers, are the same. -/
def Keep (m m' : Mem) (T : List Chunk) : Prop :=
  ∀ d ∈ inUse T, ∀ x, d.off + 40 ≤ x → x < d.off + d.size → m' x = m x

theorem Keep.trans {m m' m'' : Mem} {T T' : List Chunk} (h : Keep m m' T) (h' : Keep m' m'' T') (he : inUse T = inUse T') :
    Keep m m'' T := fun d hd x h1 h2 => (h' d (he ▸ hd) x h1 h2).trans (h d hd x h1 h2)

/-- A store to the head of a list or to the first field of a block. -/
theorem Core.next {S lim : Nat} {m : Mem} {T : List Chunk} (h : Core S lim m T) {loc v : Nat}
    (hloc : (64 ≤ loc ∧ loc + 8 ≤ 80) ∨ ∃ c ∈ T, c.off = loc) : Core S lim (m.wr loc 8 v) T ∧ Keep m (m.wr loc 8 v) T := by
  have key : ∀ e ∈ T, ∀ x, e.off + 8 ≤ x → x < e.off + e.size → m x = m.wr loc 8 v x := by
    intro e he x h1 h2
    have hb := h.off he
    rw [Mem.wr_out]
    rcases hloc with hl | ⟨c, hc, rfl⟩
    · omega
    · have hb' := h.off hc
      rcases h.apart he hc with rfl | hh
      · omega
      · omega
  refine ⟨⟨h.lim, h.big, h.tile, fun e he => (h.ok e he).congr (key e he), ?_, h.nd⟩, fun e he x h1 h2 => ?_⟩
  · rw [Mem.rd_wr_out, h.act]
    rcases hloc with hl | ⟨c, hc, rfl⟩
    · omega
    · have := h.off hc; omega
  · exact (key e (mem_inUse.1 he).1 x (by omega) h2).symm

/-- Links through other blocks are not affected by a store at the beginning of a block or at the head of a list. -/
theorem rd_next {S lim : Nat} {m : Mem} {T : List Chunk} (h : Core S lim m T) {loc v x : Nat}
    (hloc : loc + 8 ≤ 80 ∨ ∃ c ∈ T, c.off = loc) (hx : ∃ c ∈ T, c.off = x) (hne : x ≠ loc) :
    m.rd x 8 = (m.wr loc 8 v).rd x 8 := by
  obtain ⟨c, hc, rfl⟩ := hx
  have hb := h.off hc
  rw [Mem.rd_wr_out]
  rcases hloc with hl | ⟨d, hd, rfl⟩
  · omega
  · have hb' := h.off hd
    rcases h.apart hc hd with rfl | hh
    · exact absurd rfl hne
    · omega

theorem frees_mem {T : List Chunk} {x : Nat} (h : x ∈ frees T) : ∃ c ∈ T, c.off = x := by
  obtain ⟨c, h1, _, h2⟩ := mem_frees.1 h; exact ⟨c, h1, h2⟩

theorem useds_mem {T : List Chunk} {x : Nat} (h : x ∈ useds T) : ∃ c ∈ T, c.off = x := by
  obtain ⟨c, h1, _, _, h2⟩ := mem_useds.1 h; exact ⟨c, h1, h2⟩

/-- `putNext` on a list of blocks; other lists are not affected. -/
theorem Core.putNext {S lim : Nat} {m : Mem} {T : List Chunk} (h : Core S lim m T) {hd v e : Nat} {l : List Nat}
    (hl : Links m (m.rd hd 8) l e) (hhd : hd = 64 ∨ hd = 72) (hx : ∀ x ∈ l, ∃ c ∈ T, c.off = x) (nd : l.Nodup) (hv : v < W) :
    ∃ m', putNext lim hd (lastOr l 0) v m = .ok ((), m') ∧ Core S lim m' T ∧ Keep m m' T ∧
      Links m' (m'.rd hd 8) l v ∧ (∀ hd', hd' + 8 ≤ 80 → hd' + 8 ≤ hd ∨ hd + 8 ≤ hd' → m'.rd hd' 8 = m.rd hd' 8) ∧
      (∀ c ∈ T, c.off ∉ l → m'.rd c.off 8 = m.rd c.off 8) ∧ (∀ x, 80 ≤ x → (∀ c ∈ T, x < c.off ∨ c.off + 8 ≤ x) → m' x = m x) ∧
      (∀ f, 8 ≤ f → f ≤ 32 → ∀ c ∈ T, m'.rd (c.off + f) 8 = m.rd (c.off + f) 8) := by
  have hlim := h.lim
  have hbig := h.big
  obtain ⟨loc, h1, h2, h3⟩ := putNext_run (lim := lim) (v := v) hl (by omega) (by omega)
    (fun x hm => by obtain ⟨c, hc, rfl⟩ := hx x hm; have := h.off hc; omega)
    (fun x hm y hn => by
      obtain ⟨c, hc, rfl⟩ := hx x hm
      obtain ⟨d, hd, rfl⟩ := hx y hn
      have := h.off hc
      have := h.off hd
      rcases h.apart hc hd with rfl | hh
      · exact Or.inl rfl
      · omega) nd hv
  have hloc : (64 ≤ loc ∧ loc + 8 ≤ 80) ∨ ∃ c ∈ T, c.off = loc := by
    rcases h2 with rfl | h2
    · exact Or.inl (by omega)
    · exact Or.inr (hx _ h2)
  have hloc' : loc + 8 ≤ 80 ∨ ∃ c ∈ T, c.off = loc := hloc.imp_left (·.2)
  refine ⟨_, h1, (h.next hloc).1, (h.next hloc).2, h3, fun hd' hh hne => ?_, fun c hc hcl => ?_, fun x h80 hxx => ?_, fun f hf hf' c hc => ?_⟩
  · rw [Mem.rd_wr_out]
    rcases h2 with rfl | h2
    · exact hne
    · obtain ⟨c, hc, rfl⟩ := hx _ h2
      have := h.off hc; omega
  · refine (rd_next h hloc' ⟨c, hc, rfl⟩ ?_).symm
    rintro rfl
    rcases h2 with h2 | h2
    · have := h.off hc; omega
    · exact hcl h2
  · rw [Mem.wr_out]
    rcases hloc with hl | ⟨c, hc, rfl⟩
    · omega
    · have := hxx c hc; omega
  · rw [Mem.rd_wr_out]
    have hb := h.off hc
    rcases hloc with hl | ⟨d, hd, rfl⟩
    · omega
    · have := h.off hd
      rcases h.apart hc hd with rfl | hh
      · omega
      · omega

/-! ## `splitBlock` -/

theorem wsub {a b : Nat} (ha : a < W) (h : b ≤ a) : w64 (a + (W - b)) = a - b := by
  unfold w64
  rw [show a + (W - b) = (a - b) + W by omega, Nat.add_mod_right, Nat.mod_eq_of_lt (by omega)]

theorem w64_of_lt {a : Nat} (h : a < W) : w64 a = a := Nat.mod_eq_of_lt h

theorem AMax_lt : AMax < W := by decide

theorem Inv.split {S lim : Nat} {m : Mem} {A B : List Chunk} {c : Chunk} {Us : List Nat}
    (h : Inv S lim m (A ++ c :: B) Us) (hc : c.use = none) {n : Nat} (hn : n ≤ c.size) (h16 : 16 ∣ n) (h40 : 40 ≤ n) :
    ∃ m' c' B', splitBlock lim c.off (lastOr (frees A) 0) n m = .ok ((), m') ∧ Mid S lim m' A c' B' Us ∧
      c'.off = c.off ∧ n ≤ c'.size ∧ c'.size < n + 40 ∧ inUse (A ++ c' :: B') = inUse (A ++ c :: B) ∧
      names (A ++ c' :: B') = names (A ++ c :: B) ∧ Keep m m' (A ++ c :: B) := by
  have hco := h.core
  have hcT : c ∈ A ++ c :: B := by simp
  have hb := hco.off hcT
  have hAW := AMax_lt
  have hdr := (hco.ok c hcT).hdr
  have hal := (hco.ok c hcT).al
  have hfl := h.fl
  rw [frees_append, frees_none hc, Links.append] at hfl
  obtain ⟨x, hfA, hx, hfB⟩ := hfl
  subst hx
  have hndF := hco.frees_nodup
  rw [frees_append, frees_none hc] at hndF
  have hndA : (frees A).Nodup := (List.nodup_append.1 hndF).1
  have hmemA : ∀ x ∈ frees A, ∃ d ∈ A ++ c :: B, d.off = x := fun x hx => by
    obtain ⟨d, hd, he⟩ := frees_mem hx; exact ⟨d, by simp [hd], he⟩
  have hmemB : ∀ x ∈ frees B, ∃ d ∈ A ++ c :: B, d.off = x := fun x hx => by
    obtain ⟨d, hd, he⟩ := frees_mem hx; exact ⟨d, by simp [hd], he⟩
  have hdisj : ∀ x ∈ frees B, x ∉ frees A := fun x hx hy => (List.nodup_append.1 hndF).2.2 x hy x (by simp [hx]) rfl
  have hUs : ∀ x ∈ Us, x ∈ useds (A ++ c :: B) := fun x hx => h.perm.mem_iff.1 hx
  have hUA : ∀ x ∈ Us, x ∉ frees A := fun x hx hy => by
    obtain ⟨d, hd, u, hu, rfl⟩ := mem_useds.1 (hUs x hx)
    obtain ⟨e, he, hn, hee⟩ := mem_frees.1 hy
    have : e = d := nodup_map_inj hco.offs_nodup (by simp [he]) hd hee
    subst this
    rw [hn] at hu; cases hu
  unfold splitBlock
  rw [bind_run (get_run (by omega) (by omega)), hdr, wsub (by omega) hn]
  by_cases hk : c.size = n ∨ c.size - n < 40
  · rw [if_pos hk, bind_run (get_run (by omega) (by omega)), Nat.add_zero]
    obtain ⟨m', p1, p2, p3, p4, p5, p6, _, _⟩ := hco.putNext (v := m.rd c.off 8) hfA (Or.inl rfl) hmemA hndA rd8_lt
    refine ⟨m', c, B, p1, ⟨p2, hc, ?_, ?_, h.perm, h.adj.left, h.adj.right.tail⟩, rfl, hn, by omega, rfl, rfl, p3⟩
    · rw [Links.append]
      refine ⟨_, p4, hfB.congr fun x hx => ?_⟩
      obtain ⟨d, hd, rfl⟩ := hmemB x hx
      exact (p6 d hd (hdisj _ hx)).symm
    · rw [p5 72 (by omega) (by omega)]
      refine h.ul.congr fun x hx => ?_
      obtain ⟨d, hd, rfl⟩ := useds_mem (hUs x hx)
      exact (p6 d hd (hUA _ hx)).symm
  · rw [if_neg hk]
    have hnb : w64 (c.off + n) = c.off + n := w64_of_lt (by omega)
    simp only [hnb]
    rw [bind_run (set_run (by omega) (by omega)), bind_run (set_run (by omega) (by omega)),
      bind_run (get_run (by omega) (by omega)), bind_run (set_run (by omega) (by omega)),
      bind_run (set_run (by omega) (by omega)), bind_run (set_run (by omega) (by omega)),
      bind_run (set_run (by omega) (by omega))]
    simp only [Nat.add_zero]
    rw [Mem.rd_wr_out (m := m.wr _ _ _) (by omega), Mem.rd_wr_out (m := m) (by omega)]
    generalize hm1 : (((((((m.wr (c.off + n + 16) 8 0).wr (c.off + n + 8) 8 0).wr (c.off + n) 8 (m.rd c.off 8)).wr (c.off + n + 32) 8 0).wr
      (c.off + n + 24) 8 (c.size - n)).wr (c.off + 24) 8 n)) = m1
    have hout : ∀ x, (x < c.off + 24 ∨ c.off + 32 ≤ x) → (x < c.off + n ∨ c.off + n + 40 ≤ x) → m1 x = m x := by
      intro x h1 h2
      rw [← hm1, Mem.wr_out (by omega), Mem.wr_out (by omega), Mem.wr_out (by omega), Mem.wr_out (by omega),
        Mem.wr_out (by omega), Mem.wr_out (by omega)]
    have hr1 : m1.rd (c.off + 24) 8 = n := by rw [← hm1]; exact rd_wr8 (by omega)
    have hr2 : m1.rd (c.off + n + 24) 8 = c.size - n := by
      rw [← hm1, Mem.rd_wr_out (by omega)]; exact rd_wr8 (by omega)
    have hr3 : m1.rd (c.off + n) 8 = m.rd c.off 8 := by
      rw [← hm1, Mem.rd_wr_out (by omega), Mem.rd_wr_out (by omega), Mem.rd_wr_out (by omega)]; exact rd_wr8 rd8_lt
    have hother : ∀ d ∈ A ++ B, d.off + d.size ≤ c.off ∨ c.off + c.size ≤ d.off := by
      intro d hd
      have ht := hco.tile.pairwise
      rw [List.pairwise_append, List.pairwise_cons] at ht
      rcases List.mem_append.1 hd with hd | hd
      · exact Or.inl (ht.2.2 d hd c (by simp))
      · exact Or.inr (ht.2.1.1 d hd)
    have hcong : ∀ d ∈ A ++ B, ∀ x, d.off ≤ x → x < d.off + d.size → m1 x = m x := by
      intro d hd x h1 h2
      have := hother d hd
      exact hout x (by omega) (by omega)
    have hrd : ∀ d ∈ A ++ B, m1.rd d.off 8 = m.rd d.off 8 := fun d hd =>
      Mem.rd_congr fun x h1 h2 => hcong d hd x h1 (by have := hco.off (c := d) (by simp at hd ⊢; rcases hd with h | h <;> simp [h]); omega)
    have hlow : ∀ x, x < 80 → m1 x = m x := fun x hx => hout x (by omega) (by omega)
    let c' : Chunk := ⟨c.off, n, none⟩
    let r : Chunk := ⟨c.off + n, c.size - n, none⟩
    have hin : inUse (A ++ c' :: r :: B) = inUse (A ++ c :: B) := by
      rw [inUse_append, inUse_append, inUse_none rfl, inUse_none rfl, inUse_none hc]
    have hnm : names (A ++ c' :: r :: B) = names (A ++ c :: B) := by
      rw [names_append, names_append, names_none rfl, names_none rfl, names_none hc]
    have hub : usedBytes (A ++ c' :: r :: B) = usedBytes (A ++ c :: B) := by
      rw [usedBytes_append, usedBytes_append, usedBytes_none rfl, usedBytes_none rfl, usedBytes_none hc]
    have hus : useds (A ++ c' :: r :: B) = useds (A ++ c :: B) := by
      rw [useds_append, useds_append, useds_none rfl, useds_none rfl, useds_none hc]
    have hcore1 : Core S lim m1 (A ++ c' :: r :: B) := by
      refine ⟨hco.lim, hco.big, ?_, ?_, ?_, by rw [hnm]; exact hco.nd⟩
      · have ht := hco.tile
        rw [Tile.append] at ht ⊢
        obtain ⟨y, t1, t2, t3⟩ := ht
        refine ⟨y, t1, t2, by show c.off + n = y + n; rw [t2], ?_⟩
        show Tile (y + n + (c.size - n)) B S
        rw [show y + n + (c.size - n) = y + c.size by omega]
        exact t3
      · intro d hd
        have hd' : d ∈ A ∨ d = c' ∨ d = r ∨ d ∈ B := by simpa using hd
        rcases hd' with hd | rfl | rfl | hd
        · exact (hco.ok d (by simp [hd])).congr fun x _ _ => (hcong d (by simp [hd]) x (by omega) (by omega)).symm
        · exact ⟨hal, h40, hr1, fun u hu => by cases hu⟩
        · exact ⟨(Nat.dvd_add_iff_right hal).1 h16, by show 40 ≤ c.size - n; omega, hr2, fun u hu => by cases hu⟩
        · exact (hco.ok d (by simp [hd])).congr fun x _ _ => (hcong d (by simp [hd]) x (by omega) (by omega)).symm
      · rw [hub, ← hco.act]
        exact Mem.rd_congr fun x _ _ => hlow x (by omega)
    have hkeep1 : Keep m m1 (A ++ c :: B) := by
      intro d hd x h1 h2
      obtain ⟨hd, u, hu⟩ := mem_inUse.1 hd
      refine hcong d ?_ x (by omega) h2
      rcases List.mem_append.1 hd with hd | hd
      · simp [hd]
      · rcases List.mem_cons.1 hd with rfl | hd
        · rw [hc] at hu; cases hu
        · simp [hd]
    have hfA1 : Links m1 (m1.rd 64 8) (frees A) c.off := by
      rw [show m1.rd 64 8 = m.rd 64 8 from Mem.rd_congr fun x _ _ => hlow x (by omega)]
      refine hfA.congr fun x hx => ?_
      obtain ⟨d, hd, rfl⟩ := frees_mem hx
      exact (hrd d (by simp [hd])).symm
    have hul1 : Links m1 (m1.rd 72 8) Us 0 := by
      rw [show m1.rd 72 8 = m.rd 72 8 from Mem.rd_congr fun x _ _ => hlow x (by omega)]
      refine h.ul.congr fun x hx => ?_
      obtain ⟨d, hd, u, hu, rfl⟩ := mem_useds.1 (hUs x hx)
      refine (hrd d ?_).symm
      rcases List.mem_append.1 hd with hd | hd
      · simp [hd]
      · rcases List.mem_cons.1 hd with rfl | hd
        · rw [hc] at hu; cases hu
        · simp [hd]
    obtain ⟨m', p1, p2, p3, p4, p5, p6, _, _⟩ := hcore1.putNext (v := c.off + n) hfA1 (Or.inl rfl)
      (fun x hx => by obtain ⟨d, hd, he⟩ := frees_mem hx; exact ⟨d, by simp [hd], he⟩) hndA (by omega)
    have hrA : c.off + n ∉ frees A := fun hx => by
      obtain ⟨d, hd, he⟩ := frees_mem hx
      have h1 := hother d (by simp [hd])
      have h2 := hco.off (c := d) (by simp [hd])
      omega
    refine ⟨m', c', r :: B, p1, ⟨p2, rfl, ?_, ?_, by rw [hus]; exact h.perm, h.adj.left, ?_⟩, rfl, Nat.le_refl _,
      by show n < n + 40; omega, hin, hnm, ?_⟩
    · rw [Links.append]
      refine ⟨_, p4, ?_⟩
      rw [frees_none (c := r) rfl]
      refine ⟨rfl, ?_⟩
      show Links m' (m'.rd (c.off + n) 8) (frees B) 0
      rw [show m'.rd (c.off + n) 8 = m1.rd (c.off + n) 8 from p6 r (by simp) hrA, hr3]
      refine hfB.congr fun x hx => ?_
      obtain ⟨d, hd, rfl⟩ := frees_mem hx
      rw [p6 d (by simp [hd]) (hdisj _ hx)]
      exact (hrd d (by simp [hd])).symm
    · rw [p5 72 (by omega) (by omega)]
      refine hul1.congr fun x hx => ?_
      have hx' := hUs x hx
      rw [← hus] at hx'
      obtain ⟨d, hd, rfl⟩ := useds_mem hx'
      exact (p6 d hd (hUA _ hx)).symm
    · have := (h.adj.around hc).2
      cases B with
      | nil => trivial
      | cons d B => exact ⟨fun hh => this d rfl hh.2, h.adj.right.tail⟩
    · exact hkeep1.trans p3 hin.symm

end Umpire.Shm
