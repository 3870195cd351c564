import Verif.Threads.Model
/-!
# A thread that is alone computes what `Verif.Manager` says
-/
set_option autoImplicit false
set_option linter.unusedSimpArgs false
namespace Umpire.Thr
open Umpire.Judy Umpire.Mgr

theorem mp_bind_assoc {α β γ : Type} (m : MP α) (f : α → MP β) (g : β → MP γ) : (m.bind f).bind g = m.bind fun a => (f a).bind g := by
  induction m with
  | ret a => rfl
  | fail => rfl
  | alloc s n k ih => show MP.alloc s n _ = MP.alloc s n _; congr 1; funext x; exact ih x
  | dealloc s p n k ih => show MP.dealloc s p n _ = MP.dealloc s p n _; congr 1
  | realloc s p n k ih => show MP.realloc s p n _ = MP.realloc s p n _; congr 1; funext x; exact ih x
  | fromZero p k ih => show MP.fromZero p _ = MP.fromZero p _; congr 1; funext x; exact ih x
  | memcpy d s n k ih => show MP.memcpy d s n _ = MP.memcpy d s n _; congr 1
  | memset p v n k ih => show MP.memset p v n _ = MP.memset p v n _; congr 1

theorem alone_bind {β γ : Type} (m : CP β) (f : β → CP γ) : alone (m >>= f) = (alone m >>= fun b => alone (f b)) := by
  induction m with
  | ret o =>
    cases o with
    | none => rfl
    | some b => rfl
  | act a k ih =>
    funext rm
    show (perform a rm).bind (fun x => alone ((k x.1).bind f) x.2) = ((perform a rm).bind fun x => alone (k x.1) x.2).bind _
    rw [mp_bind_assoc]
    congr 1
    funext x
    exact congrFun (ih x.1) x.2

theorem alone_pure {β : Type} (b : β) : alone (pure b : CP β) = pure b := rfl
theorem alone_throw {β : Type} : alone (CP.throw : CP β) = M.throw := rfl
theorem alone_ite {β : Type} (q : Prop) [Decidable q] (m m' : CP β) : alone (if q then m else m') = if q then alone m else alone m' := by
  split <;> rfl

theorem alone_stat (s : Nat) (f : Stat → Stat) : alone (doStat s f) = setStat s f := rfl
theorem alone_cpy (d s n : Nat) : alone (doCpy d s n) = cMemcpy d s n := rfl
theorem alone_fill (d s n : Nat) : alone (doFill d s n) = cMemset d s n := rfl
theorem alone_hand (s p : Nat) (n : Option Nat) : alone (doHand s p n) = stratDealloc s p n := rfl
theorem alone_zeroQ (p : Nat) : alone (doZeroQ p) = isFromZero p := rfl
theorem alone_register (p : Nat) (r : Rec) : alone (register p r) = Mgr.register p r := by
  unfold register; rw [alone_ite]; funext rm; unfold Mgr.register; split <;> rfl
theorem alone_deregister (p : Nat) : alone (deregister p) = Mgr.deregister p := by
  funext rm
  show (match rm.amap.remove p with
    | .ok a r => MP.ret (some r, { rm with amap := a })
    | .throws a => .ret (none, { rm with amap := a })
    | .ub => .fail).bind (fun x => .ret (x.1, x.2)) = (match rm.amap.remove p with
    | .ok a r => MP.ret (some r, { rm with amap := a })
    | .throws a => .ret (none, { rm with amap := a })
    | .ub => .fail)
  cases rm.amap.remove p <;> rfl
theorem alone_find (p : Nat) : alone (find p) = (Mgr.find p >>= fun r => pure (r, 0)) := by
  funext rm
  show MP.ret _ = M.bind _ _ _
  show _ = MP.bind (MP.ret _) _
  dsimp only [MP.bind]
  cases (rm.amap.findRecord p).2 <;> rfl
theorem alone_look (h : Rec × Nat) : alone (look h) = pure h.1 := rfl
theorem alone_peek (h : Rec × Nat) : alone (doPeek h) = pure h.1 := rfl
theorem alone_regrow (s p n : Nat) : alone (doRegrow s p n) = cRealloc s p n := rfl
theorem alone_has (p : Nat) : alone (hasAllocator p) = Mgr.hasAllocator p := by
  funext rm
  show MP.ret (some (Option.isSome (α := Rec × Nat) ((rm.amap.findRecord p).2.map fun r => (r, 0))), _) = MP.ret (some (rm.amap.findRecord p).2.isSome, _)
  cases (rm.amap.findRecord p).2 <;> rfl

theorem m_bind_assoc {α β γ : Type} (m : M α) (f : α → M β) (g : β → M γ) : ((m >>= f) >>= g) = (m >>= fun a => f a >>= g) := by
  funext rm
  show ((m rm).bind _).bind _ = (m rm).bind _
  rw [mp_bind_assoc]
  congr 1
  funext x
  obtain ⟨x, rm'⟩ := x
  cases x <;> rfl

theorem m_pure_bind {α β : Type} (a : α) (f : α → M β) : ((pure a : M α) >>= f) = f a := rfl
theorem m_throw_bind {α β : Type} (f : α → M β) : ((M.throw : M α) >>= f) = M.throw := rfl

theorem alone_getBlock (s n : Nat) : alone (getBlock s n) = Mgr.getBlock s n := by
  unfold getBlock Mgr.getBlock; rw [alone_ite]; split <;> rfl

theorem alone_inspReg (p n s : Nat) : alone (inspReg p n s) = Mgr.inspReg p n s := by
  unfold inspReg Mgr.inspReg
  rw [alone_bind, alone_stat]
  simp only [alone_register]

theorem alone_inspDereg (p s : Nat) : alone (inspDereg p s) = Mgr.inspDereg p s := by
  unfold inspDereg Mgr.inspDereg
  simp only [alone_bind, alone_deregister, alone_ite, alone_stat, alone_pure, alone_register, alone_throw]

/-- `Allocator::allocate` of a thread that is alone. -/
theorem alone_allocate (c : Cfg) (s n : Nat) : alone (allocate c s n) = Mgr.allocate c s n := by
  unfold allocate Mgr.allocate
  simp only [alone_bind, alone_getBlock, alone_ite, alone_inspReg, alone_pure]

theorem alone_giveBack (s p : Nat) (n : Option Nat) : alone (giveBack s p n) = Mgr.giveBack s p n := by
  unfold giveBack Mgr.giveBack
  rw [alone_bind, alone_zeroQ]
  congr 1
  funext b
  rw [alone_ite, alone_hand, alone_hand]

theorem alone_deallocate (c : Cfg) (s p : Nat) : alone (deallocate c s p) = Mgr.deallocate c s p := by
  unfold deallocate Mgr.deallocate
  simp only [alone_bind, alone_ite, alone_inspDereg, alone_pure, alone_giveBack]

theorem alone_getSize (p : Nat) : alone (getSize p) = Mgr.getSize p := by
  unfold getSize Mgr.getSize
  simp only [alone_bind, alone_find, alone_look, alone_pure, m_bind_assoc, m_pure_bind]

theorem alone_getOwner (p : Nat) : alone (getOwner p) = Mgr.getOwner p := by
  unfold getOwner Mgr.getOwner
  simp only [alone_bind, alone_find, alone_look, alone_pure, m_bind_assoc, m_pure_bind]

theorem alone_copy (d s n : Nat) : alone (copy d s n) = Mgr.copy d s n := by
  unfold copy Mgr.copy
  simp only [alone_bind, alone_find, alone_look, alone_ite, alone_throw, alone_cpy, m_bind_assoc, m_pure_bind]

theorem alone_memset (p : Nat) (v : Int) (n : Nat) : alone (memset p v n) = Mgr.memset p v n := by
  unfold memset Mgr.memset
  simp only [alone_bind, alone_find, alone_look, alone_ite, alone_throw, alone_fill, m_bind_assoc, m_pure_bind]

theorem alone_genericRealloc (c : Cfg) (p : Nat) (h : Rec × Nat) (n : Nat) : alone (genericRealloc c p h n) = Mgr.genericRealloc c p h.1 n := by
  unfold genericRealloc Mgr.genericRealloc
  simp only [alone_bind, alone_look, alone_allocate, alone_copy, alone_deallocate, alone_pure, m_pure_bind]

theorem alone_hostRealloc (c : Cfg) (p : Nat) (h : Rec × Nat) (n : Nat) : alone (hostRealloc c p h n) = Mgr.hostRealloc c p h.1 n := by
  unfold hostRealloc Mgr.hostRealloc
  rw [alone_bind, alone_look, m_pure_bind, alone_ite]
  split
  · simp only [alone_bind, alone_look, alone_allocate, alone_copy, alone_deallocate, alone_pure, m_pure_bind]
  · rw [alone_bind, alone_deregister]
    congr 1
    funext r
    rw [alone_bind, alone_regrow]
    congr 1
    funext x
    cases x with
    | none => rfl
    | some q => simp only [alone_bind, alone_peek, m_pure_bind, alone_register, alone_pure]

theorem alone_reallocImpl (c : Cfg) (p n s : Nat) : alone (reallocImpl c p n s) = Mgr.reallocImpl c p n s := by
  unfold reallocImpl Mgr.reallocImpl
  simp only [alone_bind, alone_ite, alone_find, alone_look, alone_allocate, alone_deallocate, alone_throw, alone_hostRealloc, alone_genericRealloc,
    m_bind_assoc, m_pure_bind]

theorem alone_reallocate (c : Cfg) (dflt p n : Nat) : alone (reallocate c dflt p n) = Mgr.reallocate c dflt p n := by
  unfold reallocate Mgr.reallocate
  simp only [alone_bind, alone_ite, alone_getOwner, alone_reallocImpl, Mgr.getOwner, m_bind_assoc, m_pure_bind]

theorem alone_deallocateAny (c : Cfg) (p : Nat) : alone (deallocateAny c p) = Mgr.deallocateAny c p := by
  unfold deallocateAny Mgr.deallocateAny
  simp only [alone_bind, alone_getOwner, alone_deallocate]

theorem alone_move (c : Cfg) (p s : Nat) : alone (move c p s) = Mgr.move c p s := by
  unfold move Mgr.move
  simp only [alone_bind, alone_ite, alone_find, alone_look, alone_allocate, alone_copy, alone_deallocateAny, alone_throw, alone_pure,
    m_bind_assoc, m_pure_bind]
end Umpire.Thr
