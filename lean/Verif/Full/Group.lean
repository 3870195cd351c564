import Verif.Full.Model
/-!
# A request in progress
-/
set_option autoImplicit false
set_option linter.unusedSimpArgs false
namespace Umpire.Full
open Umpire.Prog Umpire.Nest Umpire.Whole

variable {a : Arr}

theorem wpa_and {α : Type} {P : Nat → Prop} {E : Mode} {p : Prog α} {O : Held} {Q Q' : α → Held → Prop} (h : p.wpa P E O Q)
    (h' : p.wpa P E O Q') : p.wpa P E O fun x O' => Q x O' ∧ Q' x O' := by
  induction p generalizing O with
  | ret a => exact ⟨h, h'⟩
  | fail b => exact h
  | alloc n k ih => exact ⟨h.1, fun p hp => ih _ (h.2.1 p hp) (h'.2.1 p hp), ih _ h.2.2 h'.2.2⟩
  | dealloc p n k ih => exact ⟨h.1, ih h.2 h'.2⟩

/-- What has changed when the request is done. -/
def Task.out (t : a.sys.σ) : Task a → Option Nat × a.sys.σ → Prop
  | .use q u => a.Changes t (some q) u.req.after
  | .other _ => a.Changes t none fun _ U => U

/-- The answer is not null. -/
def Task.fine : Task a → Option Nat × a.sys.σ → Prop
  | .use q (.alloc _), res => (a.kindAt q).Solid → res.1 ≠ some 0
  | _, _ => True

/-- In the middle of a request: the strategies are in state `t` until it is done, they hold
`O`, and `todo` is left to do. -/
structure Busy (I : a.sys.σ → Held → Prop) (t : a.sys.σ) (O : Held) (k : Task a) (todo : Prog (Option Nat × a.sys.σ)) : Prop where
  wpa : todo.wpa (Upto (W - 1)) (KeepUB (a.sys.keep k.cmd t)) O fun res O' => I res.2 O' ∧ k.fine res
  good : Client.Good ⟨O, a.sys.keep k.cmd t⟩
  out : rets (k.out t) todo
  stay : ∀ q, ∀ u ∈ k.stay (a.user q t), u ∈ a.sys.keep k.cmd t
  sound : Sound (a.sys.live t)

section
variable {I : a.sys.σ → Held → Prop} {t : a.sys.σ} {O : Held} {k : Task a}

theorem good_sub {O U V : Held} (h : Client.Good ⟨O, U⟩) (hs : ∀ u ∈ V, u ∈ U) (hd : V.Disjoint) : Client.Good ⟨O, V⟩ :=
  ⟨h.pos, fun u hu => h.upos u (hs u hu), hd, fun u hu => h.cov u (hs u hu)⟩

theorem Busy.start (hI : a.sys.Ok (Upto (W - 1)) I) (hN : a.NonNull (Upto (W - 1)) I) (h : I t O) (hc : a.sys.can k.cmd t) (hd : O.Disjoint) (hr : Real O)
    (hk : ∀ o, k = .other o → a.req o = .other) : Busy I t O k (a.sys.run k.cmd t) := by
  have hg := hI.good h
  have hs := good_sound hg
  have hp := a.stays hc hs
  refine ⟨?_, good_sub hg (hI.keep hc) (perm_disjoint hp ?_), ?_, ?_, hs⟩
  · cases k with
    | other o => exact wpa_mono (hI.run h hc hd hr) fun _ _ h => ⟨h, trivial⟩
    | use q u =>
      cases u with
      | dealloc p => exact wpa_mono (hI.run h hc hd hr) fun _ _ h => ⟨h, trivial⟩
      | alloc n =>
        by_cases hsol : (a.kindAt q).Solid
        · exact wpa_mono (wpa_and (hI.run h hc hd hr) (hN hsol h hc hd hr)) fun _ _ h => ⟨h.1, fun _ => h.2⟩
        · exact wpa_mono (hI.run h hc hd hr) fun _ _ h => ⟨h, fun h => absurd h hsol⟩
  · cases ht : a.req k.cmd with
    | dealloc p => exact hs.1.drop p
    | alloc n => exact hs.1
    | other => exact hs.1
  · cases k with
    | other o => exact a.other_changes hc (hk o rfl)
    | use q u => exact a.use_changes hc
  · intro q u hu
    refine hp.mem_iff.1 ?_
    cases k with
    | other o => 
      show u ∈ (a.req o).stay _
      rw [hk o rfl]
      exact a.mem_live.2 ⟨q, hu⟩
    | use q' w =>
      show u ∈ (a.req (a.cmd q' w)).stay _
      rw [a.req_cmd]
      cases w with
      | alloc n => exact a.mem_live.2 ⟨q, hu⟩
      | dealloc p =>
        have hu' := mem_drop.1 hu
        exact mem_drop.2 ⟨a.mem_live.2 ⟨q, hu'.1⟩, hu'.2⟩

theorem Busy.grow {n p : Nat} {c : Option Nat → Prog (Option Nat × a.sys.σ)} (h : Busy I t O k (.alloc n c)) (hf : Fresh p n O) :
    Busy I t ((p, n) :: O) k (c (some p)) := by
  refine ⟨h.wpa.2.1 p hf, ⟨?_, h.good.upos, h.good.disj, ?_⟩, h.out _, h.stay, h.sound⟩
  · intro o ho
    rcases List.mem_cons.1 ho with rfl | ho
    · exact h.wpa.1.1
    · exact h.good.pos o ho
  · intro u hu
    obtain ⟨o, ho, hw⟩ := h.good.cov u hu
    exact ⟨o, List.mem_cons_of_mem _ ho, hw⟩

theorem Busy.refuse {n : Nat} {c : Option Nat → Prog (Option Nat × a.sys.σ)} (h : Busy I t O k (.alloc n c)) : Busy I t O k (c none) :=
  ⟨h.wpa.2.2, h.good, h.out _, h.stay, h.sound⟩

theorem Busy.shrink {p n : Nat} {c : Prog (Option Nat × a.sys.σ)} (h : Busy I t O k (.dealloc p n c)) (hd : O.Disjoint) :
    Busy I t (Umpire.drop p O) k c := by
  obtain ⟨⟨h1, h2, h3⟩, h4⟩ := h.wpa
  have hc := (Client.Good.cover h.good).drop hd h1 h2 h.good.pos h3
  exact ⟨h4, ⟨fun o ho => h.good.pos o (drop_sub o ho), h.good.upos, h.good.disj, fun u hu => (hc u hu).2⟩, h.out, h.stay, h.sound⟩
end
end Umpire.Full
