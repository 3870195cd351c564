import Verif.Whole.Sim
/-!
# Every history of the whole is one of the facade layer
-/
set_option autoImplicit false
set_option linter.unusedSimpArgs false
namespace Umpire.Whole
open Umpire.Prog Umpire.Nest Umpire.Mgr Umpire.Judy

variable {L : Lay}

/-! ## The requests of the facade's functions -/

section
variable {α β γ : Type}

theorem fit_mono {p : MP α} {Q Q' : α → Prop} (h : Fit L p Q) (hq : ∀ a, Q a → Q' a) : Fit L p Q' := by
  induction p with
  | ret a => exact hq _ h
  | fail => trivial
  | alloc s n k ih => exact ⟨h.1, fun x => ih x (h.2 x)⟩
  | dealloc s p n k ih => exact ⟨h.1, ih h.2⟩
  | realloc s p n k ih => exact ⟨h.1, fun x => ih x (h.2 x)⟩
  | fromZero p k ih => exact fun b => ih b (h b)
  | memcpy d s n k ih => exact ih h
  | memset p v n k ih => exact ih h

theorem fit_bind {p : MP α} {f : α → MP β} {Q : β → Prop} (h : Fit L p fun a => Fit L (f a) Q) : Fit L (p.bind f) Q := by
  induction p with
  | ret a => exact h
  | fail => trivial
  | alloc s n k ih => exact ⟨h.1, fun x => ih x (h.2 x)⟩
  | dealloc s p n k ih => exact ⟨h.1, ih h.2⟩
  | realloc s p n k ih => exact ⟨h.1, fun x => ih x (h.2 x)⟩
  | fromZero p k ih => exact fun b => ih b (h b)
  | memcpy d s n k ih => exact ih h
  | memset p v n k ih => exact ih h

/-- All requests are for sizes the strategies can handle. -/
def Fits (L : Lay) (m : M β) (rm : RM) : Prop := Fit L (m rm) fun _ => True

theorem fits_bind {m : M β} {f : β → M γ} {rm : RM} (h : Fit L (m rm) fun x => ∀ b, x.1 = some b → Fits L (f b) x.2) : Fits L (m >>= f) rm := by
  refine fit_bind (fit_mono h ?_)
  rintro ⟨o, rm'⟩ h
  cases o with
  | none => trivial
  | some b => exact h b rfl

theorem fits_then {m : M β} {f : β → M γ} {rm : RM} (h : Fits L m rm) (hf : ∀ b rm', Fits L (f b) rm') : Fits L (m >>= f) rm :=
  fits_bind (fit_mono h fun x _ b _ => hf b x.2)

theorem fits_pure {b : β} {rm : RM} : Fits L (pure b : M β) rm := trivial
theorem fits_throw {rm : RM} : Fits L (M.throw : M β) rm := trivial
theorem fits_setStat {s : Nat} {f : Stat → Stat} {rm : RM} : Fits L (setStat s f) rm := trivial
theorem fits_find {p : Nat} {rm : RM} : Fits L (find p) rm := trivial

theorem fits_register {p : Nat} {r : Rec} {rm : RM} : Fits L (register p r) rm := by
  unfold Fits register
  split <;> trivial

theorem fits_deregister {p : Nat} {rm : RM} : Fits L (deregister p) rm := by
  unfold Fits deregister
  split <;> trivial

theorem fits_zero : L.Takes zero 1 := by
  intro x hx
  unfold Lay.place at hx
  rw [if_pos rfl] at hx
  injection hx with hx
  subst hx
  exact Nat.le_refl 1

theorem fits_allocate {c : Mgr.Cfg} {s n : Nat} {rm : RM} (h : L.Takes s n) : Fits L (allocate c s n) rm := by
  unfold allocate
  refine fits_then ?_ fun p rm' => ?_
  · unfold getBlock
    split
    · exact ⟨⟨by decide, fits_zero⟩, fun x => trivial⟩
    · exact ⟨⟨by omega, h⟩, fun x => trivial⟩
  · split
    · refine fits_then ?_ fun _ _ => fits_pure
      unfold inspReg
      exact fits_then fits_setStat fun _ _ => fits_register
    · exact fits_pure

theorem fits_deallocate {c : Mgr.Cfg} {s p : Nat} {rm : RM} (ht : c.tracked s = true) : Fits L (deallocate c s p) rm := by
  unfold deallocate
  split
  · exact fits_pure
  · refine fits_then ?_ fun r rm' => ?_
    · unfold inspDereg
      refine fits_then fits_deregister fun r rm' => ?_
      split
      · exact fits_then fits_setStat fun _ _ => fits_pure
      · exact fits_then fits_register fun _ _ => fits_throw
    · unfold giveBack
      refine fits_then (fun _ => trivial) fun b rm'' => ?_
      split
      · exact ⟨rfl, trivial⟩
      · exact ⟨rfl, trivial⟩

theorem fits_copy {d s n : Nat} {rm : RM} : Fits L (copy d s n) rm := by
  unfold copy
  refine fits_then fits_find fun r _ => fits_then fits_find fun r' _ => ?_
  split <;> dsimp only <;> split <;> trivial

theorem fits_memset {p n : Nat} {v : Int} {rm : RM} : Fits L (memset p v n) rm := by
  unfold memset
  refine fits_then fits_find fun r _ => ?_
  split <;> dsimp only <;> split <;> trivial

theorem fits_deallocateAny {c : Mgr.Cfg} {p : Nat} {rm : RM} (ht : ∀ s, c.tracked s = true) : Fits L (deallocateAny c p) rm := by
  unfold deallocateAny getOwner
  exact fits_then (fits_then fits_find fun _ _ => fits_pure) fun s _ => fits_deallocate (ht s)

theorem fits_reallocImpl {c : Mgr.Cfg} {p n s : Nat} {rm : RM} (ht : ∀ s, c.tracked s = true) (h : L.Takes s n) :
    Fits L (reallocImpl c p n s) rm := by
  unfold reallocImpl
  split
  · exact fits_allocate h
  · refine fits_then fits_find fun r rm' => ?_
    split
    · exact fits_throw
    · rename_i hs
      have hs : r.tag = s := by simpa using hs
      have hgen : ∀ rm, Fits L (do
          let q ← allocate c r.tag n
          copy q p (if r.size > n then n else r.size)
          deallocate c r.tag p
          return q) rm := fun rm =>
        fits_then (fits_allocate (hs ▸ h)) fun q _ => fits_then fits_copy fun _ _ => fits_then (fits_deallocate (ht _)) fun _ _ => fits_pure
      split
      · exact fits_then (fits_deallocate (ht _)) fun _ _ => fits_allocate (hs ▸ h)
      · split
        · exact fits_throw
        · split
          · unfold hostRealloc
            split
            · exact hgen _
            · refine fits_then fits_deregister fun _ _ => fits_then ?_ fun o _ => ?_
              · exact ⟨⟨by omega, hs ▸ h⟩, fun _ => trivial⟩
              · cases o with
                | none => exact fits_throw
                | some q => exact fits_then fits_register fun _ _ => fits_pure
          · exact hgen _

theorem fits_reallocate {c : Mgr.Cfg} {d p n : Nat} {rm : RM} (ht : ∀ s, c.tracked s = true) (h : L.Takes d n)
    (hr : ∀ r, (rm.amap.findRecord p).2 = some r → L.Takes r.tag n) : Fits L (reallocate c d p n) rm := by
  unfold reallocate
  split
  · exact fits_reallocImpl ht h
  · refine fits_bind ?_
    intro r hf
    exact fits_reallocImpl ht (hr r hf)

theorem fits_move {c : Mgr.Cfg} {p s : Nat} {rm : RM} (ht : ∀ s, c.tracked s = true)
    (hr : ∀ r, (rm.amap.findRecord p).2 = some r → L.Takes s r.size) : Fits L (move c p s) rm := by
  unfold move
  refine fits_bind ?_
  intro r hf
  split
  · exact fits_pure
  · split
    · exact fits_throw
    · exact fits_then (fits_allocate (hr r hf)) fun q _ => fits_then fits_copy fun _ _ => fits_then (fits_deallocateAny ht) fun _ _ => fits_pure

end

/-! ## Histories -/

theorem Rel.other {S S' : St L} {w : Mgr.World} {r : Nat} {o : (L.arr r).sys.Cmd} {v : Option Nat} {u : (L.arr r).sys.σ} (h : Rel S w)
    (hq : (L.arr r).req o = .other) (hc : (L.arr r).sys.can o (S.f r)) (hr : SRun r ((L.arr r).sys.run o (S.f r)) S.H (v, u) S'.H)
    (he : S' = S.set r u S'.H S'.mem) : Rel S' ⟨w.held, S'.mem⟩ := by
  have hch := rets_run ((L.arr r).other_changes hc hq) hr
  have hu : ∀ y, S'.user y = S.user y := by
    rintro ⟨k, q⟩
    rw [he]
    by_cases hk : k = r
    · subst hk
      rw [user_set_same.1]
      exact hch.2.1 q fun x hx => by cases hx
    · exact (user_set_ne hk).1
  have hb : ∀ y, S.built y = true → S'.built y = true := by
    rintro ⟨k, q⟩ hb
    rw [he]
    by_cases hk : k = r
    · subst hk
      rw [user_set_same.2]
      exact hch.1 q hb
    · rw [(user_set_ne hk).2]
      exact hb
  refine ⟨?_, built_next h.built hb fun y => .inl (hu y), rfl, fun b => ?_⟩
  · have := Reach.step (T := L.sys) h.reach hc hr
    rw [he]
    exact this
  · show b ∈ w.held ↔ _
    rw [h.held b]
    constructor
    · rintro ⟨y, h1, h2⟩
      exact ⟨y, h1, (hu y).symm ▸ h2⟩
    · rintro ⟨y, h1, h2⟩
      exact ⟨y, h1, hu y ▸ h2⟩

/-- Every history of the whole is a history of the facade layer. -/
theorem sim_hist (hL : L.Ok) {c : Mgr.Cfg} (ht : ∀ s, c.tracked s = true) {t : List Mgr.Ev} {rm : RM} {S : St L} (h : CHist c t rm S) :
    ∃ w, Hist anywhere c t rm w ∧ Rel S w := by
  induction h with
  | new m => exact ⟨⟨[], m⟩, .new m, Rel.init L m⟩
  | other _ hq hc hr he hk ih =>
    obtain ⟨w, h1, h2⟩ := ih
    exact ⟨_, .bytes _ h1, h2.other hq hc hr he⟩
  | bytes m _ ih =>
    obtain ⟨w, h1, h2⟩ := ih
    exact ⟨_, .bytes m h1, h2.memw m⟩
  | alloc _ hs _ hr ih =>
    obtain ⟨w, h1, h2⟩ := ih
    obtain ⟨w', h3, h4⟩ := sim_run hL hr h2
    exact ⟨w', .alloc h1 hs h3, h4⟩
  | free _ hs hp hr ih =>
    obtain ⟨w, h1, h2⟩ := ih
    obtain ⟨w', h3, h4⟩ := sim_run hL hr h2
    exact ⟨w', .free h1 hs hp (.inl (ht _)) h3, h4⟩
  | freeAny _ hp hr ih =>
    obtain ⟨w, h1, h2⟩ := ih
    obtain ⟨w', h3, h4⟩ := sim_run hL hr h2
    exact ⟨w', .freeAny h1 hp h3, h4⟩
  | realloc _ hs hp _ hr ih =>
    obtain ⟨w, h1, h2⟩ := ih
    obtain ⟨w', h3, h4⟩ := sim_run hL hr h2
    exact ⟨w', .realloc h1 hs hp h3, h4⟩
  | reallocAny _ hs hp _ _ hr ih =>
    obtain ⟨w, h1, h2⟩ := ih
    obtain ⟨w', h3, h4⟩ := sim_run hL hr h2
    exact ⟨w', .reallocAny h1 hs hp h3, h4⟩
  | move _ hs hp _ hr ih =>
    obtain ⟨w, h1, h2⟩ := ih
    obtain ⟨w', h3, h4⟩ := sim_run hL hr h2
    exact ⟨w', .move h1 hs (ht _) hp h3, h4⟩
  | copy _ hd hs hr ih =>
    obtain ⟨w, h1, h2⟩ := ih
    obtain ⟨w', h3, h4⟩ := sim_run hL hr h2
    exact ⟨w', .copy h1 hd hs h3, h4⟩
  | memset _ hp hr ih =>
    obtain ⟨w, h1, h2⟩ := ih
    obtain ⟨w', h3, h4⟩ := sim_run hL hr h2
    exact ⟨w', .memset h1 hp h3, h4⟩
  | query _ hp hr ih =>
    obtain ⟨w, h1, h2⟩ := ih
    obtain ⟨w', h3, h4⟩ := sim_run hL hr h2
    exact ⟨w', .query h1 hp h3, h4⟩

end Umpire.Whole
