import Verif.Base.Frame
import Verif.Nest.Sem
/-!
# Strategies over strategies

`Strat` is what a strategy looks like from outside; `through` carries out the
requests a program makes on a strategy.  `Sys` is a group of strategies that share
a parent, together with everything built on top of them: `Sys.node` puts a group on
top of a strategy, `Sys.par` puts two groups next to each other.

The code: a strategy keeps an `AllocationStrategy*` to its parent and calls
`m_allocator->allocate_internal / deallocate_internal` on it
(src/umpire/strategy/*.cpp, AllocationStrategy.cpp), users go through `Allocator`
(src/umpire/Allocator.inl), which records the sizes of live allocations
(ResourceManager.cpp:316-340).  Not modelled here: that record as a data structure
(see `Verif/Manager`), statistics, names.
-/
set_option autoImplicit false
set_option linter.unusedSimpArgs false
namespace Umpire.Nest
open Umpire.Prog

/-- A strategy: its own state, its constructor (`none`: exception), `allocate`
(`none`: exception), `deallocate` with the size the record knows (`false`:
exception) and its other operations. -/
structure Strat where
  σ : Type
  Op : Type
  make : Prog (Option σ)
  alloc : σ → Nat → Prog (Option Nat × σ)
  dealloc : σ → Nat → Nat → Prog (Bool × σ)
  op : Op → σ → Prog σ

/-- Carry out the requests of `p` on the strategy `S`.  An exception from
`deallocate` ends the modelled execution. -/
def through (S : Strat) {α : Type} : Prog α → S.σ → Prog (α × S.σ)
  | .ret a, s => .ret (a, s)
  | .fail b, _ => .fail b
  | .alloc n k, s => (S.alloc s n).bind fun r => through S (k r.1) r.2
  | .dealloc p n k, s => (S.dealloc s p n).bind fun r => if r.1 then through S k r.2 else .fail .abort

/-- The record of the live allocations after a request for `n` bytes was answered
with `r`.  A null pointer is no memory. -/
def record (r : Option Nat) (n : Nat) (U : Held) : Held :=
  match r with
  | none => U
  | some p => if p = 0 then U else (p, n) :: U

/-- What a strategy has to guarantee, with `Inv s O U`: in state `s` it holds `O`
from its parent and has given out `U`.  `adm`: sizes it may be asked for; `ask`:
sizes it then asks its parent for; `nn`: it never answers with null. -/
structure Strat.Ok (S : Strat) (adm ask : Nat → Prop) (nn : Prop) (Inv : S.σ → Held → Held → Prop) : Prop where
  good : ∀ {s O U}, Inv s O U → Client.Good ⟨O, U⟩
  make : S.make.wpa ask (KeepUB []) [] fun r O' => match r with
    | some s => Inv s O' []
    | none => O' = []
  alloc : ∀ {s O U n}, Inv s O U → adm n → (S.alloc s n).wpa ask (KeepUB U) O fun r O' =>
    Inv r.2 O' (record r.1 n U) ∧ (r.1 = some 0 → ¬ nn)
  dealloc : ∀ {s O U p n}, Inv s O U → (p, n) ∈ U → (S.dealloc s p n).wpa ask (KeepUB (Umpire.drop p U)) O fun r O' =>
    Inv r.2 O' (Umpire.drop p U)
  op : ∀ {s O U} (o : S.Op), Inv s O U → (S.op o s).wpa ask (KeepUB U) O fun r O' => Inv r O' U

/-- A group of strategies with a common parent and everything on top of them. -/
structure Sys where
  σ : Type
  Cmd : Type
  init : σ
  /-- the command is allowed -/
  can : Cmd → σ → Prop
  run : Cmd → σ → Prog (Option Nat × σ)
  /-- the live allocations of the users of all these strategies -/
  live : σ → Held
  /-- those that stay live during the command -/
  keep : Cmd → σ → Held

/-- No strategy at all. -/
def Sys.empty : Sys where
  σ := Unit
  Cmd := Empty
  init := ()
  can := fun _ _ => False
  run := fun _ s => .ret (none, s)
  live := fun _ => []
  keep := fun _ _ => []

/-- Two groups with the same parent. -/
def Sys.par (A B : Sys) : Sys where
  σ := A.σ × B.σ
  Cmd := A.Cmd ⊕ B.Cmd
  init := (A.init, B.init)
  can := fun c s => match c with
    | .inl c => A.can c s.1
    | .inr c => B.can c s.2
  run := fun c s => match c with
    | .inl c => (A.run c s.1).bind fun r => .ret (r.1, (r.2, s.2))
    | .inr c => (B.run c s.2).bind fun r => .ret (r.1, (s.1, r.2))
  live := fun s => A.live s.1 ++ B.live s.2
  keep := fun c s => match c with
    | .inl c => A.keep c s.1 ++ B.live s.2
    | .inr c => A.live s.1 ++ B.keep c s.2

/-- A strategy (`none`: not constructed yet), the record of the live allocations
its own users have, and what is built on it. -/
structure NodeSt (σ τ : Type) where
  own : Option σ
  user : Held
  kids : τ

/-- Construct the strategy, use it, or use something built on it. -/
inductive NodeCmd (Op C : Type) where
  | make
  | alloc (n : Nat)
  | dealloc (p : Nat)
  | op (o : Op)
  | down (c : C)

/-- The strategy `S` with the group `T` on top.  `adm` are the sizes users may ask
`S` for. -/
def Sys.node (S : Strat) (adm : Nat → Prop) (T : Sys) : Sys where
  σ := NodeSt S.σ T.σ
  Cmd := NodeCmd S.Op T.Cmd
  init := ⟨none, [], T.init⟩
  can := fun c t => match c with
    | .make => t.own.isNone
    | .alloc n => t.own.isSome ∧ adm n
    | .dealloc p => t.own.isSome ∧ ∃ n, (p, n) ∈ t.user
    | .op _ => t.own.isSome
    | .down c => t.own.isSome ∧ T.can c t.kids
  run := fun c t => match c, t.own with
    | .make, none => S.make.bind fun r => .ret (none, { t with own := r })
    | .alloc n, some s => (S.alloc s n).bind fun r => .ret (r.1, { t with own := some r.2, user := record r.1 n t.user })
    | .dealloc p, some s =>
      match t.user.find? (fun u => u.1 = p) with
      | none => .fail .ub
      | some u => (S.dealloc s p u.2).bind fun r => .ret (none, { t with own := some r.2, user := Umpire.drop p t.user })
    | .op o, some s => (S.op o s).bind fun s => .ret (none, { t with own := some s })
    | .down c, some s => (through S (T.run c t.kids) s).bind fun r =>
        .ret (r.1.1, { t with own := some r.2, kids := r.1.2 })
    | _, _ => .ret (none, t)
  live := fun t => t.user ++ T.live t.kids
  keep := fun c t => match c with
    | .dealloc p => Umpire.drop p t.user ++ T.live t.kids
    | .down c => t.user ++ T.keep c t.kids
    | _ => t.user ++ T.live t.kids

/-! ## Ranges obtained from parents -/

/-- Not null and inside the address space. -/
def Real (O : Held) : Prop := ∀ o ∈ O, o.1 ≠ 0 ∧ o.1 + o.2 ≤ AMax

theorem Real.drop {O : Held} (h : Real O) (p : Nat) : Real (Umpire.drop p O) := fun o ho => h o (drop_sub o ho)

theorem wpa_real {α : Type} {P : Nat → Prop} {E : Mode} {p : Prog α} {O : Held} {Q : α → Held → Prop}
    (h : p.wpa P E O Q) (hd : O.Disjoint) (hr : Real O) :
    p.wpa P E O fun a O' => Q a O' ∧ O'.Disjoint ∧ Real O' := by
  induction p generalizing O with
  | ret a => exact ⟨h, hd, hr⟩
  | fail b => exact h
  | alloc n k ih =>
    refine ⟨h.1, fun q hq => ih _ (h.2.1 q hq) (List.pairwise_cons.2 ⟨hq.2.2, hd⟩) ?_, ih _ h.2.2 hd hr⟩
    intro o ho
    rcases List.mem_cons.1 ho with rfl | ho
    · exact ⟨hq.1, hq.2.1⟩
    · exact hr o ho
  | dealloc q m k ih => exact ⟨h.1, ih h.2 (hd.drop q) (hr.drop q)⟩

theorem wpa_bind {α β : Type} {P : Nat → Prop} {E : Mode} {p : Prog α} {f : α → Prog β} {O : Held}
    {Q : β → Held → Prop} (h : p.wpa P E O fun a O' => (f a).wpa P E O' Q) : (p.bind f).wpa P E O Q := by
  induction p generalizing O with
  | ret a => exact h
  | fail b => exact h
  | alloc n k ih => exact ⟨h.1, fun p hp => ih _ (h.2.1 p hp), ih _ h.2.2⟩
  | dealloc p n k ih => exact ⟨h.1, ih h.2⟩

theorem wpa_frame {α : Type} {P : Nat → Prop} {E : Mode} (hE : ∀ q m, E.free q m → 0 < m) {p : Prog α} {O R T : Held}
    {Q : α → Held → Prop} (h : p.wpa P E O Q) (hT : T.Perm (O ++ R)) (hd : T.Disjoint) (hR : ∀ r ∈ R, 0 < r.2) :
    p.wpa P (E.avoid R) T fun a T' => ∃ O', T'.Perm (O' ++ R) ∧ Q a O' := by
  induction p generalizing O T with
  | ret a => exact ⟨O, hT, h⟩
  | fail b => exact h
  | alloc n k ih =>
    refine ⟨h.1, fun q hq => ?_, ih _ h.2.2 hT hd⟩
    have hf : Fresh q n O := ⟨hq.1, hq.2.1, fun r hr => hq.2.2 r (hT.mem_iff.2 (List.mem_append_left _ hr))⟩
    exact ih _ (h.2.1 q hf) (hT.cons _) (List.pairwise_cons.2 ⟨hq.2.2, hd⟩)
  | dealloc q m k ih =>
    obtain ⟨⟨h1, h2⟩, h3⟩ := h
    have hm := hE _ _ h2
    have hdp : (O ++ R).Pairwise fun a b => Disj a.1 a.2 b.1 b.2 := List.Pairwise.perm hd hT fun h => h.symm
    have hav : ∀ r ∈ R, Disj r.1 r.2 q m := fun r hr => ((List.pairwise_append.1 hdp).2.2 _ h1 r hr).symm
    have hne : ∀ r ∈ R, r.1 ≠ q := by
      intro r hr he
      have h4 := hR r hr
      have h5 := hav r hr
      unfold Disj at h5
      omega
    refine ⟨⟨hT.mem_iff.2 (List.mem_append_left _ h1), h2, hav⟩, ?_⟩
    refine ih h3 ?_ (hd.drop q)
    unfold Umpire.drop
    refine (hT.filter _).trans ?_
    rw [List.filter_append]
    have : R.filter (fun r => decide (r.1 ≠ q)) = R := List.filter_eq_self.2 fun r hr => by simpa using hne r hr
    rw [this]

/-- Ranges of `L` are non-empty and inside memory of `O`. -/
def Cov (L O : Held) : Prop := ∀ l ∈ L, 0 < l.2 ∧ ∃ o ∈ O, Within l.1 l.2 o.1 o.2

theorem Cov.drop {L O : Held} {q m : Nat} (h : Cov L O) (hd : O.Disjoint) (hm : (q, m) ∈ O) (hp : 0 < m)
    (hpos : ∀ o ∈ O, 0 < o.2) (ha : ∀ l ∈ L, Disj l.1 l.2 q m) : Cov L (Umpire.drop q O) := by
  intro l hl
  obtain ⟨h1, o, ho, hw⟩ := h l hl
  refine ⟨h1, o, mem_drop.2 ⟨ho, fun he => ?_⟩, hw⟩
  have h2 := pairwise_mem (R := fun a b : Nat × Nat => Disj a.1 a.2 b.1 b.2) hd (fun _ _ h => h.symm) ho hm
  have h3 := ha l hl
  have h4 := hpos o ho
  by_cases he2 : o = (q, m)
  · subst he2
    unfold Disj Within at *
    omega
  · have h5 := h2 he2
    unfold Disj at h5
    simp only at h5
    omega

theorem drop_append_right {q m : Nat} {A B : Held} (hd : (A ++ B).Disjoint) (hp : ∀ a ∈ A ++ B, 0 < a.2) (h : (q, m) ∈ B) :
    Umpire.drop q (A ++ B) = A ++ Umpire.drop q B := by
  unfold Umpire.drop
  rw [List.filter_append]
  congr 1
  refine List.filter_eq_self.2 fun a ha => ?_
  have h1 := (List.pairwise_append.1 hd).2.2 a ha _ h
  have h2 := hp a (List.mem_append_left _ ha)
  have h3 := hp _ (List.mem_append_right _ h)
  unfold Disj at h1
  simp only [decide_not, Bool.not_eq_eq_eq_not, Bool.not_true, decide_eq_false_iff_not]
  simp only at h1 h3
  omega

theorem drop_append_left {q m : Nat} {A B : Held} (hd : (A ++ B).Disjoint) (hp : ∀ a ∈ A ++ B, 0 < a.2) (h : (q, m) ∈ A) :
    Umpire.drop q (A ++ B) = Umpire.drop q A ++ B := by
  unfold Umpire.drop
  rw [List.filter_append]
  congr 1
  refine List.filter_eq_self.2 fun b hb => ?_
  have h1 := (List.pairwise_append.1 hd).2.2 _ h b hb
  have h2 := hp b (List.mem_append_right _ hb)
  have h3 := hp _ (List.mem_append_left _ h)
  unfold Disj at h1
  simp only [decide_not, Bool.not_eq_eq_eq_not, Bool.not_true, decide_eq_false_iff_not]
  simp only at h1 h3
  omega

theorem perm_disjoint {A B : Held} (h : A.Perm B) (hd : A.Disjoint) : B.Disjoint :=
  List.Pairwise.perm hd h fun h => h.symm

/-- A program that works with a parent giving it `Ot` works with the strategy `S` as
that parent, and leaves the memory of `user` and `L` alone. -/
theorem through_wpa {S : Strat} {adm ask : Nat → Prop} {Inv : S.σ → Held → Held → Prop} (hS : S.Ok adm ask True Inv)
    {α : Type} {p : Prog α} {L Ot user U O : Held} {s : S.σ} {Q : α → Held → Prop} (hp : p.wpa adm (KeepUB L) Ot Q)
    (hI : Inv s O U) (hU : U.Perm (user ++ Ot)) (hc : Cov L Ot) (hO : O.Disjoint) (hR : Real O) :
    (through S p s).wpa ask (KeepUB (user ++ L)) O fun r O' =>
      ∃ U' Ot', U'.Perm (user ++ Ot') ∧ Inv r.2 O' U' ∧ Q r.1 Ot' := by
  induction p generalizing Ot U O s with
  | ret a => exact ⟨U, Ot, hU, hI, hp⟩
  | fail b => exact hp
  | alloc n k ih =>
    obtain ⟨h1, h2, h3⟩ := hp
    have hg := hS.good hI
    refine wpa_bind (wpa_mono (wpa_real (wpa_weaken (hS.alloc hI h1) (fun _ h => h) (fun _ h => h) ?_) hO hR) ?_)
    · rintro q m ⟨h4, h5⟩
      refine ⟨h4, fun l hl => ?_⟩
      rcases List.mem_append.1 hl with hl | hl
      · exact h5 l (hU.mem_iff.2 (List.mem_append_left _ hl))
      · obtain ⟨-, o, ho, hw⟩ := hc l hl
        have := h5 o (hU.mem_iff.2 (List.mem_append_right _ ho))
        unfold Disj Within at *
        omega
    · rintro ⟨r, s'⟩ O' ⟨⟨h4, h5⟩, h6, h7⟩
      cases r with
      | none => exact ih _ h3 h4 hU hc h6 h7
      | some x =>
        have hx : x ≠ 0 := fun he => h5 (by rw [he]) trivial
        rw [show record (some x) n U = (x, n) :: U from if_neg hx] at h4
        have hg' := hS.good h4
        have hdj := List.pairwise_cons.1 hg'.disj
        have hfr : Fresh x n Ot := by
          obtain ⟨o, ho, hw⟩ := hg'.cov (x, n) (by simp)
          have := h7 o ho
          refine ⟨hx, ?_, fun r hr => ?_⟩
          · unfold Within at hw; simp only at hw; omega
          · exact hdj.1 r (hU.mem_iff.2 (List.mem_append_right _ hr))
        refine ih _ (h2 x hfr) h4 ((hU.cons _).trans List.perm_middle.symm) ?_ h6 h7
        intro l hl
        obtain ⟨h8, o, ho, hw⟩ := hc l hl
        exact ⟨h8, o, List.mem_cons_of_mem _ ho, hw⟩
  | dealloc q m k ih =>
    obtain ⟨⟨h1, h2, h3⟩, h4⟩ := hp
    have hg := hS.good hI
    have hdu : (user ++ Ot).Disjoint := perm_disjoint hU hg.disj
    have hpu : ∀ a ∈ user ++ Ot, 0 < a.2 := fun a ha => hg.upos a (hU.mem_iff.2 ha)
    have hdt : Ot.Disjoint := (List.pairwise_append.1 hdu).2.1
    have hpt : ∀ o ∈ Ot, 0 < o.2 := fun o ho => hpu o (List.mem_append_right _ ho)
    have hmem : (q, m) ∈ U := hU.mem_iff.2 (List.mem_append_right _ h1)
    have hU' : (Umpire.drop q U).Perm (user ++ Umpire.drop q Ot) := by
      rw [← drop_append_right hdu hpu h1]
      exact hU.filter _
    have hc' := hc.drop hdt h1 h2 hpt h3
    refine wpa_bind (wpa_mono (wpa_real (wpa_weaken (hS.dealloc hI hmem) (fun _ h => h) (fun _ h => h) ?_) hO hR) ?_)
    · rintro x n ⟨h5, h6⟩
      refine ⟨h5, fun l hl => ?_⟩
      rcases List.mem_append.1 hl with hl | hl
      · exact h6 l (hU'.mem_iff.2 (List.mem_append_left _ hl))
      · obtain ⟨-, o, ho, hw⟩ := hc' l hl
        have := h6 o (hU'.mem_iff.2 (List.mem_append_right _ ho))
        unfold Disj Within at *
        omega
    · rintro ⟨b, s'⟩ O' ⟨h5, h6, h7⟩
      cases b with
      | true => exact ih h4 h5 hU' hc' h6 h7
      | false => exact (by simp [KeepUB] : (KeepUB (user ++ L)).bad .abort)

/-! ## Systems -/

/-- What a system guarantees, with `I t O`: in state `t` it holds `O` from its parent. -/
structure Sys.Ok (T : Sys) (P : Nat → Prop) (I : T.σ → Held → Prop) : Prop where
  init : I T.init []
  good : ∀ {t O}, I t O → Client.Good ⟨O, T.live t⟩
  keep : ∀ {c t}, T.can c t → ∀ x ∈ T.keep c t, x ∈ T.live t
  run : ∀ {c t O}, I t O → T.can c t → O.Disjoint → Real O →
    (T.run c t).wpa P (KeepUB (T.keep c t)) O fun r O' => I r.2 O'

theorem Sys.empty_ok (P : Nat → Prop) : Sys.empty.Ok P fun _ O => O = [] where
  init := rfl
  good := by
    intro t O h
    subst h
    exact ⟨by simp, by simp [Sys.empty], by simp [Sys.empty], by simp [Sys.empty]⟩
  keep := fun h => h.elim
  run := fun _ h => h.elim

theorem good_append {O1 O2 L1 L2 O : Held} (h1 : Client.Good ⟨O1, L1⟩) (h2 : Client.Good ⟨O2, L2⟩) (hO : O.Perm (O1 ++ O2))
    (hd : O.Disjoint) : Client.Good ⟨O, L1 ++ L2⟩ := by
  have hd' := perm_disjoint hO hd
  refine ⟨?_, ?_, ?_, ?_⟩
  · intro o ho
    rcases List.mem_append.1 (hO.mem_iff.1 ho) with ho | ho
    · exact h1.pos o ho
    · exact h2.pos o ho
  · intro o ho
    rcases List.mem_append.1 ho with ho | ho
    · exact h1.upos o ho
    · exact h2.upos o ho
  · refine List.pairwise_append.2 ⟨h1.disj, h2.disj, fun x hx y hy => ?_⟩
    obtain ⟨o, ho, hw⟩ := h1.cov x hx
    obtain ⟨o', ho', hw'⟩ := h2.cov y hy
    exact Disj.of_within ((List.pairwise_append.1 hd').2.2 o ho o' ho') hw hw'
  · intro u hu
    rcases List.mem_append.1 hu with hu | hu
    · obtain ⟨o, ho, hw⟩ := h1.cov u hu
      exact ⟨o, hO.mem_iff.2 (List.mem_append_left _ ho), hw⟩
    · obtain ⟨o, ho, hw⟩ := h2.cov u hu
      exact ⟨o, hO.mem_iff.2 (List.mem_append_right _ ho), hw⟩

theorem Client.Good.cover {c : Client} (h : c.Good) : Cov c.U c.O := fun u hu => ⟨h.upos u hu, h.cov u hu⟩

/-- A program run while others hold `R`, on which `L` lies. -/
theorem wpa_next {α : Type} {P : Nat → Prop} {p : Prog α} {O1 R T K L : Held} {Q : α → Held → Prop}
    (h : p.wpa P (KeepUB K) O1 Q) (hT : T.Perm (O1 ++ R)) (hd : T.Disjoint) (hR : ∀ r ∈ R, 0 < r.2) (hc : Cov L R) :
    p.wpa P (KeepUB (K ++ L)) T fun a T' => ∃ O', T'.Perm (O' ++ R) ∧ Q a O' := by
  refine wpa_weaken (wpa_frame (E := KeepUB K) (fun q m h => h.1) h hT hd hR) (fun _ h => h) (fun _ h => h) ?_
  rintro q m ⟨⟨h1, h2⟩, h3⟩
  refine ⟨h1, fun l hl => ?_⟩
  rcases List.mem_append.1 hl with hl | hl
  · exact h2 l hl
  · obtain ⟨-, o, ho, hw⟩ := hc l hl
    have := h3 o ho
    unfold Disj Within at *
    omega

theorem keepUB_comm {K L : Held} {q m : Nat} (h : (KeepUB (K ++ L)).free q m) : (KeepUB (L ++ K)).free q m :=
  ⟨h.1, fun l hl => h.2 l (List.mem_append.2 (List.mem_append.1 hl).symm)⟩

theorem Sys.par_ok {A B : Sys} {P : Nat → Prop} {I : A.σ → Held → Prop} {J : B.σ → Held → Prop} (hA : A.Ok P I) (hB : B.Ok P J) :
    (Sys.par A B).Ok P fun t O => O.Disjoint ∧ ∃ O1 O2, O.Perm (O1 ++ O2) ∧ I t.1 O1 ∧ J t.2 O2 where
  init := ⟨List.Pairwise.nil, [], [], List.Perm.refl _, hA.init, hB.init⟩
  good := fun ⟨hd, _, _, hp, h1, h2⟩ => good_append (hA.good h1) (hB.good h2) hp hd
  keep := by
    intro c t h x hx
    cases c with
    | inl c =>
      rcases List.mem_append.1 hx with hx | hx
      · exact List.mem_append_left _ (hA.keep h x hx)
      · exact List.mem_append_right _ hx
    | inr c =>
      rcases List.mem_append.1 hx with hx | hx
      · exact List.mem_append_left _ hx
      · exact List.mem_append_right _ (hB.keep h x hx)
  run := by
    rintro c ⟨a, b⟩ O ⟨hd, O1, O2, hp, h1, h2⟩ hc - hr
    have hr' : Real (O1 ++ O2) := fun o ho => hr o (hp.mem_iff.2 ho)
    have hd' := List.pairwise_append.1 (perm_disjoint hp hd)
    cases c with
    | inl c =>
      have hrun := hA.run h1 hc hd'.1 fun o ho => hr' o (List.mem_append_left _ ho)
      have := wpa_next hrun hp hd (hB.good h2).pos (Client.Good.cover (hB.good h2))
      refine wpa_bind (wpa_mono (wpa_real this hd hr) ?_)
      rintro ⟨x, a'⟩ O' ⟨⟨O1', h3, h4⟩, h5, -⟩
      exact ⟨h5, O1', O2, h3, h4, h2⟩
    | inr c =>
      have hrun := hB.run h2 hc hd'.2.1 fun o ho => hr' o (List.mem_append_right _ ho)
      have := wpa_next hrun (hp.trans List.perm_append_comm) hd (hA.good h1).pos (Client.Good.cover (hA.good h1))
      refine wpa_bind (wpa_mono (wpa_real (wpa_weaken this (fun _ h => h) (fun _ h => h) fun _ _ h => keepUB_comm h) hd hr) ?_)
      rintro ⟨x, b'⟩ O' ⟨⟨O2', h3, h4⟩, h5, -⟩
      exact ⟨h5, O1, O2', h3.trans List.perm_append_comm, h1, h4⟩

/-- The invariant of a node. -/
def NodeInv {σ τ : Type} (Inv : σ → Held → Held → Prop) (I : τ → Held → Prop) (t : NodeSt σ τ) (O : Held) : Prop :=
  match t.own with
  | none => O = [] ∧ t.user = [] ∧ I t.kids []
  | some s => ∃ U Ot, U.Perm (t.user ++ Ot) ∧ Inv s O U ∧ I t.kids Ot

theorem cov_trans {A B C : Held} (h : Cov A B) (h' : Cov B C) : Cov A C := by
  intro l hl
  obtain ⟨h1, o, ho, hw⟩ := h l hl
  obtain ⟨-, o', ho', hw'⟩ := h' o ho
  exact ⟨h1, o', ho', by unfold Within at *; omega⟩

theorem cov_nil {A : Held} (h : Cov A []) : A = [] := by
  cases A with
  | nil => rfl
  | cons a _ => obtain ⟨-, o, ho, -⟩ := h a (by simp); cases ho

/-- The users of a node and those above it. -/
theorem node_good {O U user Ot L : Held} (h1 : Client.Good ⟨O, U⟩) (hU : U.Perm (user ++ Ot)) (h2 : Client.Good ⟨Ot, L⟩) :
    Client.Good ⟨O, user ++ L⟩ := by
  have hd := List.pairwise_append.1 (perm_disjoint hU h1.disj)
  have hcu : Cov U O := Client.Good.cover h1
  have hcl : Cov L O := cov_trans (Client.Good.cover h2) fun o ho => hcu o (hU.mem_iff.2 (List.mem_append_right _ ho))
  refine ⟨h1.pos, ?_, ?_, ?_⟩
  · intro u hu
    rcases List.mem_append.1 hu with hu | hu
    · exact h1.upos u (hU.mem_iff.2 (List.mem_append_left _ hu))
    · exact h2.upos u hu
  · refine List.pairwise_append.2 ⟨hd.1, h2.disj, fun x hx y hy => ?_⟩
    obtain ⟨o, ho, hw⟩ := h2.cov y hy
    exact Disj.of_within (hd.2.2 x hx o ho) ⟨Nat.le_refl _, Nat.le_refl _⟩ hw
  · intro u hu
    rcases List.mem_append.1 hu with hu | hu
    · exact h1.cov u (hU.mem_iff.2 (List.mem_append_left _ hu))
    · exact (hcl u hu).2

theorem keepUB_sub {K L : Held} (h : ∀ l ∈ L, ∃ k ∈ K, Within l.1 l.2 k.1 k.2) {q m : Nat} (hk : (KeepUB K).free q m) :
    (KeepUB L).free q m := by
  refine ⟨hk.1, fun l hl => ?_⟩
  obtain ⟨k, hk1, hw⟩ := h l hl
  have := hk.2 k hk1
  unfold Disj Within at *
  omega

theorem record_perm {r : Option Nat} {n : Nat} {U user Ot : Held} (h : U.Perm (user ++ Ot)) :
    (record r n U).Perm (record r n user ++ Ot) := by
  unfold record
  cases r with
  | none => exact h
  | some p =>
    by_cases hp : p = 0
    · simp only [hp, if_true]; exact h
    · simp only [hp, if_false]; exact h.cons _

theorem Sys.node_ok {S : Strat} {adm ask : Nat → Prop} {nn : Prop} {Inv : S.σ → Held → Held → Prop} (hS : S.Ok adm ask nn Inv)
    {T : Sys} {I : T.σ → Held → Prop} (hT : T.Ok adm I) (hn : nn ∨ ∀ c t, ¬ T.can c t) :
    (Sys.node S adm T).Ok ask (NodeInv Inv I) where
  init := ⟨rfl, rfl, hT.init⟩
  good := by
    rintro ⟨own, user, kids⟩ O h
    cases own with
    | none =>
      obtain ⟨h1, h2, h3⟩ := h
      simp only at h2
      have h4 := cov_nil (Client.Good.cover (hT.good h3))
      subst h1 h2
      show Client.Good ⟨[], [] ++ T.live kids⟩
      rw [show T.live kids = [] from h4]
      exact ⟨by simp, by simp, by simp, by simp⟩
    | some s =>
      obtain ⟨U, Ot, h1, h2, h3⟩ := h
      exact node_good (hS.good h2) h1 (hT.good h3)
  keep := by
    rintro c ⟨own, user, kids⟩ h x hx
    cases c with
    | dealloc p =>
      rcases List.mem_append.1 hx with hx | hx
      · exact List.mem_append_left _ (drop_sub x hx)
      · exact List.mem_append_right _ hx
    | down c =>
      rcases List.mem_append.1 hx with hx | hx
      · exact List.mem_append_left _ hx
      · exact List.mem_append_right _ (hT.keep h.2 x hx)
    | make => exact hx
    | alloc n => exact hx
    | op o => exact hx
  run := by
    rintro c ⟨own, user, kids⟩ O h hc hd hr
    cases own with
    | none =>
      cases c with
      | make =>
        obtain ⟨h1, h2, h3⟩ := h
        simp only at h2 h3
        subst h1 h2
        have h4 := cov_nil (Client.Good.cover (hT.good h3))
        refine wpa_bind (wpa_mono (wpa_weaken hS.make (fun _ h => h) (fun _ h => h) fun q m h => keepUB_sub (K := []) ?_ h) ?_)
        · intro l hl
          have hl : l ∈ [] ++ T.live kids := hl
          rw [show T.live kids = [] from h4] at hl
          cases hl
        · intro r O' h5
          cases r with
          | none => exact ⟨h5, rfl, h3⟩
          | some s => exact ⟨[], [], List.Perm.refl _, h5, h3⟩
      | alloc n => cases hc.1
      | dealloc p => cases hc.1
      | op o => cases hc
      | down c => cases hc.1
    | some s =>
      obtain ⟨U, Ot, h1, h2, h3⟩ := h
      simp only at h1 h3
      have hgu := hS.good h2
      have hgt := hT.good h3
      have hdu : (user ++ Ot).Disjoint := perm_disjoint h1 hgu.disj
      have hpu : ∀ a ∈ user ++ Ot, 0 < a.2 := fun a ha => hgu.upos a (h1.mem_iff.2 ha)
      have hsub : ∀ l ∈ user ++ T.live kids, ∃ k ∈ U, Within l.1 l.2 k.1 k.2 := by
        intro l hl
        rcases List.mem_append.1 hl with hl | hl
        · exact ⟨l, h1.mem_iff.2 (List.mem_append_left _ hl), Nat.le_refl _, Nat.le_refl _⟩
        · obtain ⟨o, ho, hw⟩ := hgt.cov l hl
          exact ⟨o, h1.mem_iff.2 (List.mem_append_right _ ho), hw⟩
      cases c with
      | make => cases hc
      | alloc n =>
        refine wpa_bind (wpa_mono (wpa_weaken (hS.alloc h2 hc.2) (fun _ h => h) (fun _ h => h) fun q m h => keepUB_sub hsub h) ?_)
        rintro ⟨r, s'⟩ O' ⟨h4, -⟩
        exact ⟨_, Ot, record_perm h1, h4, h3⟩
      | dealloc p =>
        obtain ⟨-, n, hn⟩ := hc
        simp only at hn
        show Prog.wpa ask _ (match user.find? (fun u => u.1 = p) with
          | none => .fail .ub
          | some u => (S.dealloc s p u.2).bind fun r =>
              .ret (none, (⟨some r.2, Umpire.drop p user, kids⟩ : NodeSt S.σ T.σ))) O _
        cases hf : user.find? (fun u => u.1 = p) with
        | none =>
          have := List.find?_eq_none.1 hf _ hn
          simp at this
        | some u =>
          have hu := List.mem_of_find?_eq_some hf
          have hup : u.1 = p := by simpa using List.find?_some hf
          obtain ⟨u1, u2⟩ := u
          simp only at hup
          subst hup
          have hU' : (Umpire.drop u1 U).Perm (Umpire.drop u1 user ++ Ot) := by
            rw [← drop_append_left hdu hpu hu]
            exact h1.filter _
          refine wpa_bind (wpa_mono (wpa_weaken (hS.dealloc h2 (h1.mem_iff.2 (List.mem_append_left _ hu))) (fun _ h => h)
            (fun _ h => h) fun q m h => keepUB_sub ?_ h) ?_)
          · intro l hl
            rcases List.mem_append.1 hl with hl | hl
            · exact ⟨l, hU'.mem_iff.2 (List.mem_append_left _ hl), Nat.le_refl _, Nat.le_refl _⟩
            · obtain ⟨o, ho, hw⟩ := hgt.cov l hl
              exact ⟨o, hU'.mem_iff.2 (List.mem_append_right _ ho), hw⟩
          · rintro ⟨r, s'⟩ O' h4
            exact ⟨_, Ot, hU', h4, h3⟩
      | op o =>
        refine wpa_bind (wpa_mono (wpa_weaken (hS.op o h2) (fun _ h => h) (fun _ h => h) fun q m h => keepUB_sub hsub h) ?_)
        intro s' O' h4
        exact ⟨U, Ot, h1, h4, h3⟩
      | down c =>
        rcases hn with hnn | hno
        · have hS' : S.Ok adm ask True Inv :=
            { hS with alloc := fun h1 h2 => wpa_mono (hS.alloc h1 h2) fun _ _ h => ⟨h.1, fun e _ => h.2 e hnn⟩ }
          have hdt : Ot.Disjoint := (List.pairwise_append.1 hdu).2.1
          have hcu : Cov U O := Client.Good.cover hgu
          have hrt : Real Ot := by
            intro o ho
            obtain ⟨-, x, hx, hw⟩ := hcu o (h1.mem_iff.2 (List.mem_append_right _ ho))
            have := hr x hx
            unfold Within at hw
            omega
          have hk := hT.keep hc.2
          have hcov : Cov (T.keep c kids) Ot := fun l hl => Client.Good.cover hgt l (hk l hl)
          refine wpa_bind (wpa_mono (through_wpa hS' (hT.run h3 hc.2 hdt hrt) h2 h1 hcov hd hr) ?_)
          rintro ⟨⟨x, kids'⟩, s'⟩ O' ⟨U', Ot', h4, h5, h6⟩
          exact ⟨U', Ot', h4, h5, h6⟩
        · exact absurd hc.2 (hno c kids)

end Umpire.Nest
