import Verif.MallocPool.Props
/-!
# `FixedMallocPool` stays inside its blocks (C13)

What counts as an invalid access is stated byte by byte, independently of the
test used by the model; memory outside the blocks is never changed; and
`numPools` is the number of blocks held.
-/
set_option autoImplicit false
set_option linter.unusedSimpArgs false
namespace Umpire.MallocPool
open Umpire.Prog

/-- Byte `x` belongs to the block of the pool whose block begins at `d`. -/
def Byte (cfg : Cfg) (d x : Nat) : Prop := d ≤ x ∧ x < d + cfg.data

theorem okAccess_byte {cfg : Cfg} {p : Pool} {a n : Nat} (h : okAccess cfg p a n = true) {x : Nat}
    (h1 : a ≤ x) (h2 : x < a + n) : Byte cfg p.data x := by
  simp only [okAccess, decide_eq_true_eq] at h
  unfold Byte
  omega

theorem initOne_frame {cfg : Cfg} {m m' : Mem} {p p' : Pool} (h : initOne cfg m p = some (m', p')) :
    p'.data = p.data ∧ ∀ x, ¬ Byte cfg p.data x → m' x = m x := by
  unfold initOne at h
  by_cases h1 : p.numInit < cfg.per
  · rw [if_pos h1] at h
    by_cases h2 : okAccess cfg p (addrOf cfg p p.numInit) 4 = true
    · rw [if_pos h2] at h
      cases h
      exact ⟨rfl, fun x hx => Mem.wr_out fun hr => hx (okAccess_byte h2 hr.1 hr.2)⟩
    · rw [if_neg h2] at h; cases h
  · rw [if_neg h1] at h
    cases h
    exact ⟨rfl, fun _ _ => rfl⟩

theorem allocInPool_frame {cfg : Cfg} {m m' : Mem} {p p' : Pool} {r : Nat} (h : allocInPool cfg m p = some (r, m', p')) :
    p'.data = p.data ∧ ∀ x, ¬ Byte cfg p.data x → m' x = m x := by
  unfold allocInPool at h
  cases hi : initOne cfg m p with
  | none => rw [hi] at h; cases h
  | some q =>
    obtain ⟨m1, p1⟩ := q
    rw [hi] at h
    have hf := initOne_frame hi
    dsimp only at h
    by_cases h1 : p1.numFree > 0
    · rw [if_pos h1] at h
      by_cases h2 : p1.numFree - 1 ≠ 0
      · rw [if_pos h2] at h
        by_cases h3 : okAccess cfg p1 p1.next 4 = true
        · rw [if_pos h3] at h; cases h; exact hf
        · rw [if_neg h3] at h; cases h
      · rw [if_neg h2] at h; cases h; exact hf
    · rw [if_neg h1] at h; cases h; exact hf

theorem allocLoop_frame {cfg : Cfg} {m m' : Mem} {ps ps' : List Pool} {r : Nat}
    (h : allocLoop cfg m ps = some (r, m', ps')) :
    ps'.map (·.data) = ps.map (·.data) ∧ ∀ x, (∀ p ∈ ps, ¬ Byte cfg p.data x) → m' x = m x := by
  induction ps generalizing m m' ps' r with
  | nil => unfold allocLoop at h; cases h; exact ⟨rfl, fun _ _ => rfl⟩
  | cons p ps ih =>
    unfold allocLoop at h
    cases hi : allocInPool cfg m p with
    | none => rw [hi] at h; cases h
    | some q =>
      obtain ⟨r1, m1, p1⟩ := q
      rw [hi] at h
      dsimp only at h
      have hf := allocInPool_frame hi
      by_cases h1 : r1 ≠ 0
      · rw [if_pos h1] at h
        cases h
        exact ⟨by simp [hf.1], fun x hx => hf.2 x (hx p (by simp))⟩
      · rw [if_neg h1] at h
        cases hl : allocLoop cfg m1 ps with
        | none => rw [hl] at h; cases h
        | some q =>
          obtain ⟨r2, m2, ps2⟩ := q
          rw [hl] at h
          cases h
          have hg := ih hl
          refine ⟨by simp [hf.1, hg.1], fun x hx => ?_⟩
          rw [hg.2 x fun p hp => hx p (by simp [hp]), hf.2 x (hx p (by simp))]

theorem allocate_frame {cfg : Cfg} {fuel : Nat} {s s' : State} {O O' : Held} {p : Nat}
    (h : Run (allocate cfg fuel s) O (p, s') O') :
    (∀ q ∈ s.pools, q.data ∈ s'.pools.map (·.data)) ∧
    ∀ x, (∀ q ∈ s'.pools, ¬ Byte cfg q.data x) → s'.mem x = s.mem x := by
  induction fuel generalizing s O with
  | zero => unfold allocate at h; cases h
  | succ fuel ih =>
    unfold allocate at h
    cases hl : allocLoop cfg s.mem s.pools.reverse with
    | none => rw [hl] at h; cases h
    | some q =>
      obtain ⟨r, m, ps⟩ := q
      rw [hl] at h
      dsimp only at h
      obtain ⟨hf1, hf2⟩ := allocLoop_frame hl
      have hmem : ∀ d, d ∈ ps.map (·.data) ↔ d ∈ s.pools.map (·.data) := by
        intro d; rw [hf1]; simp
      by_cases h1 : r ≠ 0
      · rw [if_pos h1] at h
        cases h
        refine ⟨fun q hq => ?_, fun x hx => hf2 x fun q hq hb => ?_⟩
        · have := (hmem q.data).2 (List.mem_map_of_mem hq)
          simpa using this
        · obtain ⟨q2, h2, h3⟩ := List.mem_map.1 ((hmem q.data).2 (List.mem_map_of_mem (List.mem_reverse.1 hq)))
          exact hx q2 (List.mem_reverse.2 h2) (by rw [h3]; exact hb)
      · rw [if_neg h1] at h
        have key : ∀ {d O1}, Run (allocate cfg fuel ⟨m, ps.reverse ++ [mkPool cfg d]⟩) O1 (p, s') O' →
            (∀ q ∈ s.pools, q.data ∈ s'.pools.map (·.data)) ∧
              ∀ x, (∀ q ∈ s'.pools, ¬ Byte cfg q.data x) → s'.mem x = s.mem x := by
          intro d O1 hr
          obtain ⟨g1, g2⟩ := ih hr
          have g3 : ∀ q ∈ s.pools, q.data ∈ s'.pools.map (·.data) := by
            intro q hq
            obtain ⟨q2, h2, h3⟩ := List.mem_map.1 ((hmem q.data).2 (List.mem_map_of_mem hq))
            have := g1 q2 (by simp [h2])
            rw [← h3]; exact this
          refine ⟨g3, fun x hx => ?_⟩
          rw [g2 x hx]
          refine hf2 x fun q hq hb => ?_
          obtain ⟨q2, h2, h3⟩ := List.mem_map.1 (g3 q (List.mem_reverse.1 hq))
          exact hx q2 h2 (by rw [h3]; exact hb)
        cases h with
        | allocOk _ hr => exact key hr
        | allocFail hr => exact key hr

theorem freeIn_frame {cfg : Cfg} {m m' : Mem} {p p' : Pool} {a : Nat} (h : freeIn cfg m p a = some (m', p')) :
    ∀ x, ¬ Byte cfg p.data x → m' x = m x := by
  unfold freeIn at h
  intro x hx
  by_cases h1 : p.next ≠ 0
  · rw [if_pos h1] at h
    by_cases h2 : okAccess cfg p a 4 = true
    · rw [if_pos h2] at h; cases h
      exact Mem.wr_out fun hr => hx (okAccess_byte h2 hr.1 hr.2)
    · rw [if_neg h2] at h; cases h
  · rw [if_neg h1] at h
    by_cases h2 : okAccess cfg p a 8 = true
    · rw [if_pos h2] at h; cases h
      exact Mem.wr_out fun hr => hx (okAccess_byte h2 hr.1 hr.2)
    · rw [if_neg h2] at h; cases h

theorem deallocLoop_frame {cfg : Cfg} {m m' : Mem} {a : Nat} {ps ps' : List Pool}
    (h : deallocLoop cfg m a ps = some (some (m', ps'))) :
    ∀ x, (∀ p ∈ ps, ¬ Byte cfg p.data x) → m' x = m x := by
  induction ps generalizing m' ps' with
  | nil => unfold deallocLoop at h; cases h
  | cons p ps ih =>
    unfold deallocLoop at h
    intro x hx
    by_cases h1 : inPool cfg p a = true
    · rw [if_pos h1] at h
      cases hf : freeIn cfg m p a with
      | none => rw [hf] at h; cases h
      | some q =>
        rw [hf] at h
        cases h
        exact freeIn_frame hf x (hx p (by simp))
    · rw [if_neg h1] at h
      cases hl : deallocLoop cfg m a ps with
      | none => rw [hl] at h; cases h
      | some o =>
        cases o with
        | none => rw [hl] at h; cases h
        | some q =>
          rw [hl] at h
          cases h
          exact ih hl x fun q hq => hx q (by simp [hq])

/-- An access is valid exactly when every byte of it belongs to the block of the
pool and the block exists. -/
theorem mallocpool_access (cfg : Cfg) (p : Pool) (a n : Nat) :
    okAccess cfg p a (n + 1) = true ↔ p.data ≠ 0 ∧ ∀ i, i ≤ n → p.data ≤ a + i ∧ a + i < p.data + cfg.data := by
  simp only [okAccess, decide_eq_true_eq]
  constructor
  · rintro ⟨h1, h2, h3⟩
    exact ⟨h1, fun i hi => by omega⟩
  · rintro ⟨h1, h2⟩
    have := h2 0 (by omega)
    have := h2 n (by omega)
    omega

example : okAccess cfgX ⟨1600, 1600, 0, 2⟩ 1628 4 = true ∧ okAccess cfgX ⟨1600, 1600, 0, 2⟩ 1629 4 = false := by decide

/-- Whatever the pool does, memory outside the blocks it holds stays as it is, and
`numPools` tells how many blocks it holds. -/
theorem mallocpool_inside {cfg : Cfg} (hc : CfgOk cfg) {S : Sys} (h : Reach cfg S) :
    numPools S.st = S.held.length ∧
    (∀ fuel p s' O', Run (allocate cfg (fuel + 2) S.st) S.held (p, s') O' →
      numPools s' = O'.length ∧ ∀ x, (∀ o ∈ O', ¬ (o.1 ≤ x ∧ x < o.1 + o.2)) → s'.mem x = S.st.mem x) ∧
    (∀ p b s' O', Run (deallocate cfg S.st p) S.held (b, s') O' →
      O' = S.held ∧ ∀ x, (∀ o ∈ S.held, ¬ (o.1 ≤ x ∧ x < o.1 + o.2)) → s'.mem x = S.st.mem x) := by
  have count : ∀ {T : Sys}, SInv cfg T → numPools T.st = T.held.length ∧
      ∀ q ∈ T.st.pools, (q.data, cfg.data) ∈ T.held := by
    rintro T ⟨G, hG, hi⟩
    refine ⟨?_, fun q hq => ?_⟩
    · have := hi.held.length_eq
      simp only [numPools, hG, List.length_map] at this ⊢
      exact this.symm
    · rw [hG] at hq
      obtain ⟨g, hg, rfl⟩ := List.mem_map.1 hq
      exact hi.held.mem_iff.2 (List.mem_map.2 ⟨g, hg, rfl⟩)
  have hi := reach_inv hc h
  refine ⟨(count hi).1, fun fuel p s' O' hr => ?_, fun p b s' O' hr => ?_⟩
  · have h2 := count (allocate_run hc hi hr).1
    exact ⟨h2.1, fun x hx => (allocate_frame hr).2 x fun q hq hb => hx _ (h2.2 q hq) hb⟩
  · unfold deallocate at hr
    cases hl : deallocLoop cfg S.st.mem p S.st.pools with
    | none => rw [hl] at hr; cases hr; exact ⟨rfl, fun _ _ => rfl⟩
    | some o =>
      cases o with
      | none => rw [hl] at hr; cases hr
      | some q =>
        obtain ⟨m, ps⟩ := q
        rw [hl] at hr
        cases hr
        exact ⟨rfl, fun x hx => deallocLoop_frame hl x fun q hq hb => hx _ ((count hi).2 q hq) hb⟩

example : ∃ S, Reach cfgX S ∧ numPools S.st = 2 := by
  obtain ⟨S, h1, _, h3⟩ := sysX_exists
  exact ⟨S, h1, by rw [(mallocpool_inside cfgX_ok h1).1, h3]; rfl⟩

end Umpire.MallocPool
