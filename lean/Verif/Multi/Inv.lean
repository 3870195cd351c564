import Verif.Multi.Model
/-!
# Threads that record events: who has which block
-/
set_option autoImplicit false
set_option linter.unusedSimpArgs false
namespace Umpire.Multi
open Umpire.Replay (Ev Blk Call P Act Done perform program cleanRun clean innerOk plainName)

/-! ## Blocks are in one place -/

/-- The blocks a call has in hand before the rest of its steps. -/
def owe : List Micro → List (Nat × Nat)
  | [] => []
  | .take a p :: l => (owe l).erase (a, p)
  | .give a p :: l => (a, p) :: owe l
  | .logA a _ p :: l => (a, p) :: owe l
  | .re2 a _ p :: l => (a, p) :: owe l
  | .logD a p :: l => (owe l).erase (a, p)
  | .re1 a p _ :: l => (owe l).erase (a, p)
  | _ :: l => owe l

/-- What is taken is put somewhere. -/
def Ok : List Micro → Prop
  | [] => True
  | .take a p :: l => (a, p) ∈ owe l ∧ Ok l
  | .logD a p :: l => (a, p) ∈ owe l ∧ Ok l
  | .re1 a p _ :: l => (p = 0 ∧ (a, p) ∉ owe l ∨ p ≠ 0 ∧ (a, p) ∈ owe l) ∧ Ok l
  | _ :: l => Ok l

theorem owe_micros (c : Cmd) : owe (micros c) = [] := by
  cases c with
  | reallocHost a p n p' e => cases e <;> by_cases h : p = p' <;> simp [micros, owe, List.erase_cons, h]
  | realloc a p n p' => by_cases h : p = p' <;> simp [micros, owe, List.erase_cons, h]
  | _ => simp [micros, owe, List.erase_cons]

theorem ok_micros {c : Cmd} (h : c.sane) : Ok (micros c) := by
  cases c with
  | reallocHost a p n p' e => cases e <;> by_cases h' : p = p' <;> simp_all [micros, owe, Ok, Cmd.sane, List.erase_cons]
  | realloc a p n p' => by_cases h' : p = p' <;> simp_all [micros, owe, Ok, Cmd.sane, List.erase_cons]
  | _ => simp_all [micros, owe, Ok, Cmd.sane, List.erase_cons]

/-- Every block is in one place. -/
structure Phys (held H : List (Nat × Nat)) (O : Nat → List (Nat × Nat)) : Prop where
  has : ∀ x ∈ H, x ∈ held
  owe : ∀ t, ∀ x ∈ O t, x ∈ held
  hnd : H.Nodup
  ond : ∀ t, (O t).Nodup
  ho : ∀ t, ∀ x ∈ H, x ∉ O t
  oo : ∀ t u, t ≠ u → ∀ x ∈ O t, x ∉ O u

def upd (O : Nat → List (Nat × Nat)) (t : Nat) (l : List (Nat × Nat)) : Nat → List (Nat × Nat) :=
  fun u => if u = t then l else O u

variable {held H H' : List (Nat × Nat)} {O : Nat → List (Nat × Nat)}

/-- A general change in thread `t`. -/
theorem Phys.change {held' : List (Nat × Nat)} (h : Phys held H O) {t : Nat} {l : List (Nat × Nat)}
    (h1 : ∀ x ∈ H', x ∈ held') (h2 : ∀ x ∈ l, x ∈ held') (h3 : ∀ u, u ≠ t → ∀ x ∈ O u, x ∈ held')
    (h4 : H'.Nodup) (h5 : l.Nodup) (h6 : ∀ x ∈ H', x ∉ l) (h7 : ∀ u, u ≠ t → ∀ x ∈ H', x ∉ O u)
    (h8 : ∀ u, u ≠ t → ∀ x ∈ l, x ∉ O u) : Phys held' H' (upd O t l) where
  has := h1
  owe := by
    intro u x hx
    unfold upd at hx
    split at hx
    · exact h2 x hx
    · next hu => exact h3 u hu x hx
  hnd := h4
  ond := by
    intro u
    unfold upd
    split
    · exact h5
    · exact h.ond u
  ho := by
    intro u x hx
    unfold upd
    split
    · exact h6 x hx
    · next hu => exact h7 u hu x hx
  oo := by
    intro u v huv x hx
    unfold upd at hx ⊢
    split at hx
    · next hu =>
      subst hu
      rw [if_neg fun e => huv e.symm]
      exact h8 v (fun e => huv e.symm) x hx
    · next hu =>
      split
      · exact fun hl => h8 u hu x hl hx
      · exact h.oo u v huv x hx

theorem Phys.same (h : Phys held H O) (t : Nat) : Phys held H (upd O t (O t)) := by
  have : upd O t (O t) = O := by
    funext u; unfold upd; split
    · next e => rw [e]
    · rfl
  rwa [this]

theorem Phys.take (h : Phys held H O) {t : Nat} {x : Nat × Nat} {l : List (Nat × Nat)} (hx : x ∉ held)
    (hl : l.Perm (x :: O t)) : Phys (x :: held) H (upd O t l) := by
  have hxO : ∀ u, x ∉ O u := fun u hu => hx (h.owe u x hu)
  refine h.change (fun y hy => List.mem_cons_of_mem _ (h.has y hy)) ?_
    (fun u _ y hy => List.mem_cons_of_mem _ (h.owe u y hy)) h.hnd ?_ ?_ (fun u _ => h.ho u) ?_
  · intro y hy
    rcases List.mem_cons.mp (hl.mem_iff.mp hy) with rfl | hy
    · exact List.mem_cons_self
    · exact List.mem_cons_of_mem _ (h.owe t y hy)
  · exact hl.nodup_iff.mpr (List.nodup_cons.mpr ⟨hxO t, h.ond t⟩)
  · intro y hy hl'
    rcases List.mem_cons.mp (hl.mem_iff.mp hl') with rfl | hy'
    · exact hx (h.has _ hy)
    · exact h.ho t y hy hy'
  · intro u hu y hy
    rcases List.mem_cons.mp (hl.mem_iff.mp hy) with rfl | hy
    · exact hxO u
    · exact h.oo t u (fun e => hu e.symm) y hy

theorem Phys.give (h : Phys held H O) {t : Nat} {x : Nat × Nat} {l : List (Nat × Nat)} (hO : O t = x :: l) :
    Phys (held.filter fun y => decide (y ≠ x)) H (upd O t l) := by
  have hnd := h.ond t
  rw [hO, List.nodup_cons] at hnd
  have hxt : x ∈ O t := by rw [hO]; exact List.mem_cons_self
  refine h.change ?_ ?_ ?_ h.hnd hnd.2 ?_ (fun u _ => h.ho u) ?_
  · intro y hy
    simp only [List.mem_filter, decide_eq_true_eq]
    exact ⟨h.has y hy, fun e => h.ho t y hy (e ▸ hxt)⟩
  · intro y hy
    simp only [List.mem_filter, decide_eq_true_eq]
    exact ⟨h.owe t y (by rw [hO]; exact List.mem_cons_of_mem _ hy), fun e => hnd.1 (e ▸ hy)⟩
  · intro u hu y hy
    simp only [List.mem_filter, decide_eq_true_eq]
    exact ⟨h.owe u y hy, fun e => h.oo u t hu y hy (e ▸ hxt)⟩
  · exact fun y hy hl => h.ho t y hy (by rw [hO]; exact List.mem_cons_of_mem _ hl)
  · exact fun u hu y hy => h.oo t u (fun e => hu e.symm) y (by rw [hO]; exact List.mem_cons_of_mem _ hy)

/-- A block goes to the users. -/
theorem Phys.pass (h : Phys held H O) {t : Nat} {x : Nat × Nat} {l : List (Nat × Nat)} (hO : O t = x :: l) :
    Phys held (x :: H) (upd O t l) ∧ x ∉ H := by
  have hnd := h.ond t
  rw [hO, List.nodup_cons] at hnd
  have hxt : x ∈ O t := by rw [hO]; exact List.mem_cons_self
  have hxH : x ∉ H := fun hx => h.ho t x hx hxt
  refine ⟨h.change ?_ ?_ (fun u _ => h.owe u) (List.nodup_cons.mpr ⟨hxH, h.hnd⟩) hnd.2 ?_ ?_ ?_, hxH⟩
  · intro y hy
    rcases List.mem_cons.mp hy with rfl | hy
    · exact h.owe t _ hxt
    · exact h.has y hy
  · exact fun y hy => h.owe t y (by rw [hO]; exact List.mem_cons_of_mem _ hy)
  · intro y hy hl
    rcases List.mem_cons.mp hy with rfl | hy
    · exact hnd.1 hl
    · exact h.ho t y hy (by rw [hO]; exact List.mem_cons_of_mem _ hl)
  · intro u hu y hy
    rcases List.mem_cons.mp hy with rfl | hy
    · exact h.oo t u (fun e => hu e.symm) _ hxt
    · exact h.ho u y hy
  · exact fun u hu y hy => h.oo t u (fun e => hu e.symm) y (by rw [hO]; exact List.mem_cons_of_mem _ hy)

/-- A block comes from the users. -/
theorem Phys.back (h : Phys held H O) {t : Nat} {x : Nat × Nat} {l : List (Nat × Nat)} (hx : x ∈ H)
    (hH : ∀ y, y ∈ H' ↔ y ∈ H ∧ y ≠ x) (hn : H'.Nodup) (hl : l.Perm (x :: O t)) : Phys held H' (upd O t l) := by
  refine h.change (fun y hy => h.has y ((hH y).mp hy).1) ?_ (fun u _ => h.owe u) hn ?_ ?_
    (fun u _ y hy => h.ho u y ((hH y).mp hy).1) ?_
  · intro y hy
    rcases List.mem_cons.mp (hl.mem_iff.mp hy) with rfl | hy
    · exact h.has _ hx
    · exact h.owe t y hy
  · exact hl.nodup_iff.mpr (List.nodup_cons.mpr ⟨h.ho t x hx, h.ond t⟩)
  · intro y hy hl'
    rcases List.mem_cons.mp (hl.mem_iff.mp hl') with rfl | hy'
    · exact ((hH _).mp hy).2 rfl
    · exact h.ho t y ((hH y).mp hy).1 hy'
  · intro u hu y hy
    rcases List.mem_cons.mp (hl.mem_iff.mp hy) with rfl | hy
    · exact h.ho u _ hx
    · exact h.oo t u (fun e => hu e.symm) y hy

/-! ## The invariant -/

def addrs (l : List Blk) : List (Nat × Nat) := l.map fun b => (b.a, b.p)

def owes (s : S) : Nat → List (Nat × Nat) := fun t => owe (s.todo t)

structure Inv (s : S) : Prop where
  phys : Phys s.held (addrs s.has) (owes s)
  ids : s.has.Pairwise fun b c => b.id ≠ c.id
  range : ∀ b ∈ s.has, 1 ≤ b.id ∧ b.id ≤ s.calls.length
  nz : ∀ x ∈ s.held, x.2 ≠ 0
  ok : ∀ t, Ok (s.todo t)

theorem Inv.init : Inv .init :=
  ⟨⟨by simp [addrs, S.init], by simp [owes, S.init, owe], by simp [addrs, S.init], by simp [owes, S.init, owe],
    by simp [addrs, S.init], by simp [owes, S.init, owe]⟩, by simp [S.init], by simp [S.init], by simp [S.init],
    fun _ => trivial⟩

/-- With `l` still to do in thread `t`, before a small step. -/
structure Pre (s : S) (t : Nat) (l : List Micro) : Prop where
  phys : Phys s.held (addrs s.has) (upd (owes s) t (owe l))
  ids : s.has.Pairwise fun b c => b.id ≠ c.id
  range : ∀ b ∈ s.has, 1 ≤ b.id ∧ b.id ≤ s.calls.length
  nz : ∀ x ∈ s.held, x.2 ≠ 0
  ok : ∀ u, u ≠ t → Ok (s.todo u)
  okt : Ok l

theorem Pre.inv {s : S} {t : Nat} {l : List Micro} (h : Pre s t l) : Inv (s.then_ t l) := by
  have e : owes (s.then_ t l) = upd (owes s) t (owe l) := by
    funext u; unfold owes upd S.then_; dsimp only; split <;> rfl
  refine ⟨by rw [e]; exact h.phys, h.ids, h.range, h.nz, fun u => ?_⟩
  show Ok (if u = t then l else s.todo u)
  split
  · exact h.okt
  · next hu => exact h.ok u hu

theorem find_spec {s : S} {a p : Nat} {b : Blk} (h : s.find a p = some b) : b ∈ s.has ∧ b.a = a ∧ b.p = p := by
  refine ⟨List.mem_of_find?_eq_some h, ?_⟩
  have := List.find?_some h
  simpa using this

theorem find_none {s : S} {a p : Nat} (h : s.find a p = none) : (a, p) ∉ addrs s.has := by
  intro hm
  obtain ⟨b, hb, e⟩ := List.mem_map.mp hm
  have := List.find?_eq_none.mp h b hb
  simp at e this
  exact this e.1 e.2

theorem addrs_inj {l : List Blk} (hn : (addrs l).Nodup) {b c : Blk} (hb : b ∈ l) (hc : c ∈ l)
    (e : (b.a, b.p) = (c.a, c.p)) : b = c := by
  induction l with
  | nil => cases hb
  | cons x l ih =>
    simp only [addrs, List.map_cons, List.nodup_cons] at hn
    have hmem : ∀ y ∈ l, (y.a, y.p) ∈ l.map fun b => (b.a, b.p) := fun y hy => List.mem_map.mpr ⟨y, hy, rfl⟩
    rcases List.mem_cons.mp hb with hb1 | hb1 <;> rcases List.mem_cons.mp hc with hc1 | hc1
    · rw [hb1, hc1]
    · exact absurd (by rw [← hb1, e]; exact hmem c hc1) hn.1
    · exact absurd (by rw [← hc1, ← e]; exact hmem b hb1) hn.1
    · exact ih hn.2 hb1 hc1

theorem id_inj {l : List Blk} (hn : l.Pairwise fun b c => b.id ≠ c.id) {b c : Blk} (hb : b ∈ l) (hc : c ∈ l)
    (e : b.id = c.id) : b = c := by
  induction l with
  | nil => cases hb
  | cons x l ih =>
    rw [List.pairwise_cons] at hn
    rcases List.mem_cons.mp hb with hb1 | hb1 <;> rcases List.mem_cons.mp hc with hc1 | hc1
    · rw [hb1, hc1]
    · exact absurd (hb1 ▸ e) (hn.1 c hc1)
    · exact absurd (hc1 ▸ e.symm) (hn.1 b hb1)
    · exact ih hn.2 hb1 hc1

theorem addrs_lose {l : List Blk} (hn : (addrs l).Nodup) (hi : l.Pairwise fun b c => b.id ≠ c.id) {b : Blk} (hb : b ∈ l)
    (y : Nat × Nat) : y ∈ addrs (l.filter fun c => decide (c.id ≠ b.id)) ↔ y ∈ addrs l ∧ y ≠ (b.a, b.p) := by
  simp only [addrs, List.mem_map, List.mem_filter, decide_eq_true_eq]
  constructor
  · rintro ⟨c, ⟨hc, hne⟩, rfl⟩
    exact ⟨⟨c, hc, rfl⟩, fun e => hne (by rw [addrs_inj hn hc hb e])⟩
  · rintro ⟨⟨c, hc, rfl⟩, hne⟩
    exact ⟨c, ⟨hc, fun e => hne (by rw [id_inj hi hc hb e])⟩, rfl⟩

theorem addrs_lose_nodup {l : List Blk} (hn : (addrs l).Nodup) (id : Nat) :
    (addrs (l.filter fun c => decide (c.id ≠ id))).Nodup :=
  List.Nodup.sublist (List.Sublist.map _ List.filter_sublist) hn

theorem perm_erase {l : List (Nat × Nat)} {x : Nat × Nat} (h : x ∈ l) : l.Perm (x :: l.erase x) :=
  List.perm_cons_erase h

theorem upd_upd (O : Nat → List (Nat × Nat)) (t : Nat) (l l' : List (Nat × Nat)) : upd (upd O t l) t l' = upd O t l' := by
  funext u; unfold upd; split <;> rfl

theorem upd_self (O : Nat → List (Nat × Nat)) (t : Nat) (l : List (Nat × Nat)) : upd O t l t = l := by
  simp [upd]

/-- Every small step keeps it. -/
theorem Pre.exec {s s' : S} {t : Nat} {m : Micro} {l : List Micro} (h : Pre s t (m :: l)) (he : exec t s m = some s') :
    Pre s' t l := by
  have hp := h.phys
  have hself := upd_self (owes s) t (Multi.owe (m :: l))
  -- steps that only write
  have plain : ∀ s'', s''.held = s.held → s''.has = s.has → s.calls.length ≤ s''.calls.length → s''.todo = s.todo →
      Multi.owe (m :: l) = Multi.owe l → Ok l → Pre s'' t l := by
    intro s'' e1 e2 e3 e4 e5 e6
    refine ⟨?_, by rw [e2]; exact h.ids, fun b hb => ?_, by rw [e1]; exact h.nz, fun u hu => by rw [e4]; exact h.ok u hu, e6⟩
    · rw [e1, e2, show owes s'' = owes s from by unfold owes; rw [e4], ← e5]; exact hp
    · rw [e2] at hb; have := h.range b hb; omega
  have gain : ∀ (s'' : S) (a p : Nat), s''.held = s.held → s''.has = ⟨s.calls.length + 1, a, p⟩ :: s.has →
      s''.calls.length = s.calls.length + 1 → s''.todo = s.todo →
      Multi.owe (m :: l) = (a, p) :: Multi.owe l → Ok l → Pre s'' t l := by
    intro s'' a p e1 e2 e3 e4 e5 e6
    have := (hp.pass (hself.trans e5)).1
    rw [upd_upd] at this
    refine ⟨?_, ?_, ?_, by rw [e1]; exact h.nz, fun u hu => by rw [e4]; exact h.ok u hu, e6⟩
    · rw [e1, e2, show owes s'' = owes s from by unfold owes; rw [e4]]
      exact this
    · rw [e2, List.pairwise_cons]
      exact ⟨fun b hb e => by have := (h.range b hb).2; simp at e; omega, h.ids⟩
    · intro b hb
      rw [e2] at hb
      rcases List.mem_cons.mp hb with rfl | hb
      · simp; omega
      · have := h.range b hb; omega
  have lose : ∀ (s'' : S) (b : Blk), b ∈ s.has → s''.held = s.held →
      s''.has = s.has.filter (fun c => decide (c.id ≠ b.id)) →
      s.calls.length ≤ s''.calls.length → s''.todo = s.todo → (b.a, b.p) ∈ Multi.owe l →
      Multi.owe (m :: l) = (Multi.owe l).erase (b.a, b.p) → Ok l → Pre s'' t l := by
    intro s'' b hb e1 e2 e3 e4 e5 e5' e6
    refine ⟨?_, ?_, ?_, by rw [e1]; exact h.nz, fun u hu => by rw [e4]; exact h.ok u hu, e6⟩
    · rw [e1, e2, show owes s'' = owes s from by unfold owes; rw [e4]]
      have := hp.back (H' := addrs (s.has.filter fun c => decide (c.id ≠ b.id))) (t := t) (x := (b.a, b.p))
        (l := Multi.owe l) (List.mem_map.mpr ⟨b, hb, rfl⟩) (addrs_lose hp.hnd h.ids hb) (addrs_lose_nodup hp.hnd _)
        (by rw [hself, e5']; exact perm_erase e5)
      rwa [upd_upd] at this
    · rw [e2]; exact h.ids.sublist List.filter_sublist
    · intro c hc
      rw [e2] at hc
      have := h.range c (List.mem_filter.mp hc).1; omega
  have hok := h.okt
  cases m with
  | take a p =>
    simp only [Multi.exec] at he
    split at he
    · next hc =>
      cases he
      refine ⟨?_, h.ids, h.range, ?_, h.ok, hok.2⟩
      · have := hp.take (t := t) (l := Multi.owe l) hc.2 (by rw [hself]; exact perm_erase hok.1)
        rwa [upd_upd] at this
      · intro x hx
        rcases List.mem_cons.mp hx with rfl | hx
        · exact hc.1
        · exact h.nz x hx
    · cases he
  | give a p =>
    simp only [Multi.exec, Option.some.injEq] at he
    subst he
    refine ⟨?_, h.ids, h.range, fun x hx => h.nz x (List.mem_filter.mp hx).1, h.ok, hok⟩
    have := hp.give (t := t) (x := (a, p)) (l := Multi.owe l) hself
    rwa [upd_upd] at this
  | logA a n p =>
    simp only [Multi.exec] at he
    split at he <;> cases he
    exact gain _ a p rfl rfl (by simp [S.made, S.write, S.gain]) rfl rfl hok
  | logD a p =>
    simp only [Multi.exec] at he
    split at he
    · next r nm b h1 h2 =>
      cases he
      obtain ⟨f1, f2, f3⟩ := find_spec h2
      exact lose _ b f1 rfl rfl (by simp [S.made, S.write, S.lose]) rfl (by rw [f2, f3]; exact hok.1)
        (by rw [f2, f3]; rfl) hok.2
    · cases he
  | re1 a p n =>
    simp only [Multi.exec] at he
    split at he
    · cases he
    · split at he
      · next hz =>
        cases he
        refine plain _ rfl rfl (Nat.le_refl _) rfl ?_ hok.2
        rcases hok.1 with ⟨_, hn⟩ | ⟨hn, _⟩
        · exact List.erase_of_not_mem hn
        · exact absurd hz hn
      · split at he
        · cases he
        · next hz _ b h2 =>
          cases he
          obtain ⟨f1, f2, f3⟩ := find_spec h2
          exact lose _ b f1 rfl rfl (Nat.le_refl _) rfl
            (by rw [f2, f3]; rcases hok.1 with ⟨h0, _⟩ | ⟨_, h1⟩; exact absurd h0 hz; exact h1) (by rw [f2, f3]; rfl) hok.2
  | re2 a n p =>
    simp only [Multi.exec] at he
    split at he
    · cases he
      exact gain _ a p rfl rfl (by simp [S.made, S.write, S.gain]) rfl rfl hok
    · cases he
  | quiet =>
    cases he
    exact plain _ rfl rfl (Nat.le_refl _) rfl rfl hok
  | make ref nm =>
    simp only [Multi.exec] at he
    split at he <;> cases he
    exact plain _ rfl rfl (by simp [S.made, S.write]) rfl rfl hok
  | stray a p =>
    simp only [Multi.exec] at he
    split at he <;> cases he
    exact plain _ rfl rfl (Nat.le_refl _) rfl rfl hok
  | _ =>
    simp only [Multi.exec] at he
    split at he <;> cases he
    exact plain _ rfl rfl (by simp [S.made, S.write]) rfl rfl hok

theorem Inv.pre {s : S} (h : Inv s) {t : Nat} {l : List Micro} (ho : owe l = owe (s.todo t)) (hok : Ok l) : Pre s t l := by
  refine ⟨?_, h.ids, h.range, h.nz, fun u _ => h.ok u, hok⟩
  rw [ho]
  exact h.phys.same t

theorem Inv.step {s s' : S} {t : Nat} (h : Inv s) (st : Step t s s') : Inv s' := by
  cases st with
  | call c m l _ s1 h0 hs hc he =>
    refine (Pre.exec (h.pre (l := m :: l) ?_ ?_) he).inv
    · rw [← hc, owe_micros, h0]; rfl
    · rw [← hc]; exact ok_micros hs
  | next m l _ s1 h0 he =>
    refine (Pre.exec (h.pre (l := m :: l) ?_ ?_) he).inv
    · rw [h0]
    · rw [← h0]; exact h.ok t

theorem Reach.inv {s : S} (h : Reach s) : Inv s := by
  induction h with
  | init => exact Inv.init
  | step _ t st ih => exact ih.step st

end Umpire.Multi
