import Verif.Full.Props
/-!
# C66: calls in progress come to an end

`full_progress_partial` says that somebody can go on.  Here: as long as nothing new is begun,
every way of going on comes to an end, whoever is scheduled, and it ends with all calls and all
requests done.
-/
set_option autoImplicit false
set_option linter.unusedSimpArgs false
namespace Umpire.Full
open Umpire.Prog Umpire.Nest Umpire.Judy Umpire.Mgr Umpire.Whole
open Umpire.Thr (Act CP Call code after set Pre Fits target Inv ThrOk)

/-! ## Finitely many things in progress, each of which comes to an end -/

section
variable {ι : Type} {A : ι → Type} {lt : ∀ i, A i → A i → Prop}

/-- Ended, or further on. -/
def Below {α : Type} (lt : α → α → Prop) : Option α → Option α → Prop
  | none, some _ => True
  | some a, some b => lt a b
  | _, none => False

theorem below_wf {α : Type} {lt : α → α → Prop} (h : WellFounded lt) : WellFounded (Below lt) := by
  have h0 : Acc (Below lt) none := ⟨_, fun y hy => by cases y <;> exact hy.elim⟩
  have h1 : ∀ a, Acc (Below lt) (some a) := by
    intro a
    induction a using h.induction with
    | _ a ih =>
      refine ⟨_, fun y hy => ?_⟩
      cases y with
      | none => exact h0
      | some b => exact ih b hy
  exact ⟨fun o => by cases o with | none => exact h0 | some a => exact h1 a⟩

/-- One thing has gone on, the others have not changed. -/
def One (lt : ∀ i, A i → A i → Prop) (f g : ∀ i, Option (A i)) : Prop := ∃ i, Below (lt i) (f i) (g i) ∧ ∀ k, k ≠ i → f k = g k

def OneIn (lt : ∀ i, A i → A i → Prop) (l : List ι) (f g : ∀ i, Option (A i)) : Prop :=
  ∃ i, i ∈ l ∧ Below (lt i) (f i) (g i) ∧ ∀ k, k ≠ i → f k = g k

theorem oneIn_wf (h : ∀ i, WellFounded (lt i)) : ∀ l : List ι, WellFounded (OneIn lt l)
  | [] => ⟨fun f => ⟨_, fun g hg => by obtain ⟨i, hi, -⟩ := hg; cases hi⟩⟩
  | i :: l => by
    have ih := oneIn_wf h l
    refine ⟨fun f => ?_⟩
    have key : ∀ o : Option (A i), ∀ f : ∀ i, Option (A i), f i = o → Acc (OneIn lt (i :: l)) f := by
      intro o
      induction o using (below_wf (h i)).induction with
      | _ o iho =>
        intro f hf
        induction f using ih.induction with
        | _ f ihf =>
          refine ⟨_, fun g hg => ?_⟩
          obtain ⟨k, hk, h1, h2⟩ := hg
          by_cases hki : k = i
          · subst hki
            exact iho (g k) (hf ▸ h1) g rfl
          · rcases List.mem_cons.1 hk with hk | hk
            · exact absurd hk hki
            · exact ihf g ⟨k, hk, h1, h2⟩ ((h2 i fun e => hki e.symm).trans hf)
    exact key _ f rfl

/-- Finitely many things are in progress. -/
def Few (f : ∀ i, Option (A i)) : Prop := ∃ l : List ι, ∀ i, f i ≠ none → i ∈ l

theorem one_acc (h : ∀ i, WellFounded (lt i)) {f : ∀ i, Option (A i)} (hf : Few f) : Acc (One lt) f := by
  obtain ⟨l, hl⟩ := hf
  induction f using (oneIn_wf h l).induction with
  | _ f ih =>
    refine ⟨_, fun g hg => ?_⟩
    obtain ⟨i, h1, h2⟩ := hg
    have hi : f i ≠ none := by
      intro e
      rw [e] at h1
      cases hgi : g i <;> rw [hgi] at h1 <;> exact h1
    refine ih g ⟨i, hl i hi, h1, h2⟩ fun k hk => ?_
    by_cases hki : k = i
    · subst hki; exact hl k hi
    · exact hl k (h2 k hki ▸ hk)

/-- What is left of a call or a request after a step. -/
inductive CP.Rest {β : Type} : CP β → CP β → Prop where
  | act {a k} (x : Act.Ans a) : CP.Rest (k x) (.act a k)

theorem CP.rest_wf {β : Type} : WellFounded (@CP.Rest β) := by
  refine ⟨fun p => ?_⟩
  induction p with
  | ret o => exact ⟨_, fun y hy => by cases hy⟩
  | act a k ih =>
    refine ⟨_, fun y hy => ?_⟩
    cases hy with
    | act x => exact ih x

inductive Prog.Rest {α : Type} : Prog α → Prog α → Prop where
  | alloc {n k} (x : Option Nat) : Prog.Rest (k x) (.alloc n k)
  | dealloc {p n k} : Prog.Rest k (.dealloc p n k)

theorem Prog.rest_wf {α : Type} : WellFounded (@Prog.Rest α) := by
  refine ⟨fun p => ?_⟩
  induction p with
  | ret o => exact ⟨_, fun y hy => by cases hy⟩
  | fail o => exact ⟨_, fun y hy => by cases hy⟩
  | alloc n k ih =>
    refine ⟨_, fun y hy => ?_⟩
    cases hy with
    | alloc x => exact ih x
  | dealloc p n k ih =>
    refine ⟨_, fun y hy => ?_⟩
    cases hy
    exact ih

end

section
variable {L : Lay} {T : Type} [DecidableEq T] {c : Mgr.Cfg} {M M' : MS L T}

/-- A step that begins nothing: of a thread in a call, or of a request in progress. -/
inductive Goes (c : Mgr.Cfg) (Pre : List Rec → Call → Prop) : MS L T → MS L T → Prop where
  | step {t M M'} : M.thr t ≠ none → Step c Pre t M M' → Goes c Pre M M'
  | work {r M M'} : M.job r ≠ none → Work r M M' → Goes c Pre M M'

theorem Goes.reach {Pre : List Rec → Call → Prop} (h : Reach c Pre M) (hg : Goes c Pre M M') : Reach c Pre M' := by
  cases hg with
  | step _ h1 => exact h.step h1
  | work _ h1 => exact h.work h1

/-- The thread waits for a request that has begun. -/
def Waits (f : ∀ r, Option (Job T (L.arr r))) (t : T) : Prop := ∃ r j, f r = some j ∧ j.who = some t

omit [DecidableEq T] in
theorem waits_upd {f : ∀ r, Option (Job T (L.arr r))} {r : Nat} {o : Option (Job T (L.arr r))} {t : T}
    (h : (∃ j, f r = some j ∧ j.who = some t) ↔ ∃ j, o = some j ∧ j.who = some t) : Waits (updJ f r o) t ↔ Waits f t := by
  constructor
  · rintro ⟨k, j, h1, h2⟩
    by_cases hk : k = r
    · subst hk
      rw [updJ_same] at h1
      obtain ⟨j, h3⟩ := h.2 ⟨j, h1, h2⟩
      exact ⟨k, j, h3⟩
    · rw [updJ_ne hk] at h1
      exact ⟨k, j, h1, h2⟩
  · rintro ⟨k, j, h1, h2⟩
    by_cases hk : k = r
    · subst hk
      obtain ⟨j, h3, h4⟩ := h.1 ⟨j, h1, h2⟩
      exact ⟨k, j, by rw [updJ_same]; exact h3, h4⟩
    · exact ⟨k, j, by rw [updJ_ne hk]; exact h1, h2⟩

open Classical in
/-- What is left of the calls: the code, and whether a request has still to be made. -/
noncomputable def calls (M : MS L T) (t : T) : Option (CP Nat × Nat) := (M.thr t).map fun x => (x.2, if Waits M.job t then 0 else 1)

/-- What is left of the requests. -/
def jobs (M : MS L T) (r : Nat) : Option (Prog (Option Nat × (L.arr r).sys.σ)) := (M.job r).map fun j => j.todo

def callLt : CP Nat × Nat → CP Nat × Nat → Prop := Prod.Lex CP.Rest (· < ·)

theorem callLt_wf : WellFounded callLt := (Prod.lex ⟨_, CP.rest_wf⟩ ⟨_, Nat.lt_wfRel.wf⟩).wf

abbrev CallsGo (M M' : MS L T) : Prop := One (fun _ => callLt) (calls M') (calls M)
abbrev JobsGo (M M' : MS L T) : Prop := One (fun _ => Prog.Rest) (jobs M') (jobs M)

omit [DecidableEq T] in
theorem calls_eq {M M' : MS L T} {t : T} (h : M'.thr t = M.thr t) (hw : Waits M'.job t ↔ Waits M.job t) : calls M' t = calls M t := by
  have : Waits M'.job t = Waits M.job t := propext hw
  unfold calls
  rw [h, this]

/-- A thread has gone on with its code. -/
theorem code_goes {t : T} {cl : Call} {m : CP Nat} {o : Option (Call × CP Nat)} (ht : M.thr t = some (cl, m)) (h1 : M'.thr = set M.thr t o)
    (ho : ∀ cl' m', o = some (cl', m') → CP.Rest m' m) (hw : ∀ u, u ≠ t → (Waits M'.job u ↔ Waits M.job u)) : CallsGo M M' := by
  refine ⟨t, ?_, fun u hu => calls_eq ?_ (hw u hu)⟩
  · unfold calls
    rw [ht, h1, Thr.set_same]
    cases o with
    | none => trivial
    | some x => exact Prod.Lex.left _ _ (ho x.1 x.2 rfl)
  · rw [h1, Thr.set_other _ _ hu]

theorem act_goes {t : T} {cl : Call} {a : Act} {k : a.Ans → CP Nat} {x : a.Ans} (ht : M.thr t = some (cl, .act a k)) (h1 : M'.thr = set M.thr t (some (cl, k x)))
    (hw : ∀ u, u ≠ t → (Waits M'.job u ↔ Waits M.job u)) : CallsGo M M' := by
  refine code_goes ht h1 (fun _ _ e => ?_) hw
  injection e with e
  injection e with _ e
  subst e
  exact .act x

omit [DecidableEq T] in
/-- A thread has begun a request. -/
theorem begin_goes {t : T} {r : Nat} {j : Job T (L.arr r)} {x : Call × CP Nat} (ht : M.thr t = some x) (hn : M.job r = none) (hj : j.who = some t)
    (hw : NoJob M t) (h1 : M'.thr = M.thr) (h2 : M'.job = updJ M.job r (some j)) : CallsGo M M' := by
  refine ⟨t, ?_, fun u hu => calls_eq (by rw [h1]) ?_⟩
  · have h3 : ¬Waits M.job t := by
      rintro ⟨k, i, h4, h5⟩
      exact hw k i h4 h5
    have h4 : Waits M'.job t := ⟨r, j, by rw [h2, updJ_same], hj⟩
    unfold calls
    rw [h1, ht, if_pos h4, if_neg h3]
    exact Prod.Lex.right _ Nat.zero_lt_one
  · rw [h2]
    refine waits_upd ⟨?_, ?_⟩
    · rintro ⟨i, h3, -⟩
      rw [hn] at h3; cases h3
    · rintro ⟨i, h3, h4⟩
      injection h3 with h3
      subst h3
      rw [hj] at h4
      injection h4 with h4
      exact absurd h4.symm hu

omit [DecidableEq T] in
/-- The end of a request matters to the thread it is for only. -/
theorem end_waits {t u : T} {r : Nat} {j : Job T (L.arr r)} (hu : u ≠ t) (hj : M.job r = some j) (ht : j.who = some t) :
    Waits (updJ M.job r none) u ↔ Waits M.job u := by
  refine waits_upd ⟨?_, ?_⟩
  · rintro ⟨i, h3, h4⟩
    rw [hj] at h3
    injection h3 with h3
    subst h3
    rw [ht] at h4
    injection h4 with h4
    exact absurd h4.symm hu
  · rintro ⟨i, h3, -⟩
    cases h3

omit [DecidableEq T] in
theorem local_same {a : Act} {x : a.Ans} (h : Local a x M M') : M'.thr = M.thr ∧ M'.job = M.job := by cases h <;> exact ⟨rfl, rfl⟩

omit [DecidableEq T] in
/-- A request has gone on or ended, which no thread waits for to end. -/
theorem job_goes {r : Nat} {j : Job T (L.arr r)} {o : Option (Job T (L.arr r))} (hj : M.job r = some j) (h1 : M'.thr = M.thr) (h2 : M'.job = updJ M.job r o)
    (hw : o.bind (·.who) = j.who) (ho : ∀ i, o = some i → Prog.Rest i.todo j.todo) : calls M' = calls M ∧ JobsGo M M' := by
  refine ⟨funext fun u => calls_eq (by rw [h1]) ?_, r, ?_, fun k hk => ?_⟩
  · rw [h2]
    refine waits_upd ⟨?_, ?_⟩
    · rintro ⟨i, h3, h4⟩
      rw [hj] at h3
      injection h3 with h3
      subst h3
      rw [h4] at hw
      cases o with
      | none => cases hw
      | some i => exact ⟨i, rfl, hw⟩
    · rintro ⟨i, h3, h4⟩
      subst h3
      exact ⟨j, hj, hw.symm.trans h4⟩
  · unfold jobs
    rw [hj, h2, updJ_same]
    cases o with
    | none => trivial
    | some i => exact ho i rfl
  · unfold jobs
    rw [h2, updJ_ne hk]

/-- Every step that begins nothing takes a call further, or a request. -/
theorem goes_less {I : Invs L} {P : List Rec → Call → Prop} (hJ : J I M) (h : Goes c P M M') : CallsGo M M' ∨ (calls M' = calls M ∧ JobsGo M M') := by
  cases h with
  | @step t _ _ hn h =>
    refine .inl ?_
    cases h with
    | start h1 => exact absurd h1 hn
    | give h1 => exact absurd h1 hn
    | take h1 => exact absurd h1 hn
    | write h1 => exact absurd h1 hn
    | ret h1 => exact code_goes h1 rfl (fun _ _ e => by cases e) fun _ _ => .rfl
    | act h1 h2 =>
      obtain ⟨h3, h4⟩ := local_same h2
      refine act_goes h1 (congrArg (set · t _) h3) fun u _ => ?_
      show Waits (MS.job _) u ↔ _
      rw [h4]
    | idle h1 h2 => exact act_goes h1 rfl fun u _ => .rfl
    | ask h1 h2 h3 h4 =>
      refine begin_goes h1 h3 rfl (hJ.noJobAt h1 fun x hx => ?_) rfl rfl
      rw [h2] at hx
      injection hx with hx
      subst hx
      exact h3
    | asked h1 h2 h3 =>
      exact act_goes h1 rfl fun u hu => end_waits hu h2 rfl
    | hand h1 h2 h3 h4 h5 =>
      refine begin_goes h1 h3 rfl (hJ.noJobHand h1 fun x hx => ?_) rfl rfl
      rw [h2] at hx
      injection hx with hx
      subst hx
      exact h3
    | handed h1 h2 h3 =>
      exact act_goes h1 rfl fun u hu => end_waits hu h2 rfl
  | @work r _ _ hn h =>
    refine .inr ?_
    cases h with
    | grow h1 h2 h3 => exact job_goes h1 rfl rfl rfl fun i e => by injection e with e; subst e; exact .alloc _
    | refuse h1 h2 => exact job_goes h1 rfl rfl rfl fun i e => by injection e with e; subst e; exact .alloc _
    | shrink h1 h2 => exact job_goes h1 rfl rfl rfl fun i e => by injection e with e; subst e; exact .dealloc
    | begin h1 => exact absurd h1 hn
    | done h1 h2 => exact job_goes h1 rfl rfl rfl fun i e => by cases e

/-! ## Finitely many calls and requests are in progress -/

theorem few_set {β : Type} {f : T → Option β} {t : T} {o : Option β} (h : ∃ l : List T, ∀ u, f u ≠ none → u ∈ l) :
    ∃ l : List T, ∀ u, set f t o u ≠ none → u ∈ l := by
  obtain ⟨l, hl⟩ := h
  refine ⟨t :: l, fun u hu => ?_⟩
  by_cases he : u = t
  · exact he ▸ List.mem_cons_self
  · rw [Thr.set_other _ _ he] at hu
    exact List.mem_cons_of_mem _ (hl u hu)

omit [DecidableEq T] in
theorem few_upd {f : ∀ r, Option (Job T (L.arr r))} {r : Nat} {o : Option (Job T (L.arr r))} (h : ∃ l : List Nat, ∀ k, f k ≠ none → k ∈ l) :
    ∃ l : List Nat, ∀ k, updJ f r o k ≠ none → k ∈ l := by
  obtain ⟨l, hl⟩ := h
  refine ⟨r :: l, fun u hu => ?_⟩
  by_cases he : u = r
  · exact he ▸ List.mem_cons_self
  · rw [updJ_ne he] at hu
    exact List.mem_cons_of_mem _ (hl u hu)

theorem few_reach {P : List Rec → Call → Prop} (h : Reach c P M) : (∃ l : List T, ∀ t, M.thr t ≠ none → t ∈ l) ∧ ∃ l : List Nat, ∀ r, M.job r ≠ none → r ∈ l := by
  induction h with
  | init => exact ⟨⟨[], fun _ h => absurd rfl h⟩, [], fun _ h => absurd rfl h⟩
  | step _ hs ih =>
    cases hs with
    | start => exact ⟨few_set ih.1, ih.2⟩
    | ret => exact ⟨few_set ih.1, ih.2⟩
    | give => exact ih
    | take => exact ih
    | write => exact ih
    | act h1 h2 =>
      obtain ⟨h3, h4⟩ := local_same h2
      exact ⟨few_set (h3 ▸ ih.1), h4 ▸ ih.2⟩
    | idle => exact ⟨few_set ih.1, ih.2⟩
    | ask => exact ⟨ih.1, few_upd ih.2⟩
    | asked => exact ⟨few_set ih.1, few_upd ih.2⟩
    | hand => exact ⟨ih.1, few_upd ih.2⟩
    | handed => exact ⟨few_set ih.1, few_upd ih.2⟩
  | work _ hs ih =>
    cases hs with
    | grow => exact ⟨ih.1, few_upd ih.2⟩
    | refuse => exact ⟨ih.1, few_upd ih.2⟩
    | shrink => exact ⟨ih.1, few_upd ih.2⟩
    | begin => exact ⟨ih.1, few_upd ih.2⟩
    | done => exact ⟨ih.1, few_upd ih.2⟩

omit [DecidableEq T] in
theorem few_calls (h : ∃ l : List T, ∀ t, M.thr t ≠ none → t ∈ l) : Few (A := fun _ => CP Nat × Nat) (calls M) := by
  obtain ⟨l, hl⟩ := h
  refine ⟨l, fun t ht => hl t fun e => ht ?_⟩
  unfold calls
  rw [e]
  rfl

omit [DecidableEq T] in
theorem few_jobs (h : ∃ l : List Nat, ∀ t, M.job t ≠ none → t ∈ l) : Few (A := fun r => Prog (Option Nat × (L.arr r).sys.σ)) (jobs M) := by
  obtain ⟨l, hl⟩ := h
  refine ⟨l, fun t ht => hl t fun e => ht ?_⟩
  unfold jobs
  rw [e]
  rfl

theorem goes_acc (hL : L.Ok) (h : Reach c (Pre c L.Takes) M) : Acc (fun M' M => Goes c (Pre c L.Takes) M M') M := by
  have key : ∀ C : T → Option (CP Nat × Nat), Acc (One (A := fun _ => CP Nat × Nat) fun _ => callLt) C → ∀ D : ∀ r, Option (Prog (Option Nat × (L.arr r).sys.σ)),
      Acc (One fun _ => Prog.Rest) D → ∀ M : MS L T, Reach c (Pre c L.Takes) M → calls M = C → jobs M = D → Acc (fun M' M => Goes c (Pre c L.Takes) M M') M := by
    intro C hC
    induction hC with
    | intro C _ ihC =>
      intro D hD
      induction hD with
      | intro D _ ihD =>
        intro M hM h1 h2
        refine ⟨_, fun M' hg => ?_⟩
        obtain ⟨I, _, hJ, _⟩ := facts hL hM
        have hM' := hg.reach hM
        rcases goes_less hJ hg with h3 | ⟨h3, h4⟩
        · exact ihC (calls M') (h1 ▸ h3) _ (one_acc (fun _ => Prog.rest_wf) (few_jobs (few_reach hM').2)) M' hM' rfl rfl
        · exact ihD (jobs M') (h2 ▸ h4) M' hM' (h3.trans h1) rfl
  exact key _ (one_acc (fun _ => callLt_wf) (few_calls (few_reach h).1)) _ (one_acc (fun _ => Prog.rest_wf) (few_jobs (few_reach h).2)) M h rfl rfl

/-! ## The property -/

/-- A finite number of steps that begin nothing. -/
inductive Leads (c : Mgr.Cfg) (Pre : List Rec → Call → Prop) : MS L T → MS L T → Prop where
  | here {M : MS L T} : Leads c Pre M M
  | go {M M1 M' : MS L T} : Goes c Pre M M1 → Leads c Pre M1 M' → Leads c Pre M M'

theorem Leads.then {P : List Rec → Call → Prop} {M1 : MS L T} (h : Leads c P M M1) (hg : Goes c P M1 M') : Leads c P M M' := by
  induction h with
  | here => exact .go hg .here
  | go h1 _ ih => exact .go h1 (ih hg)

/-- Calls end: there is no infinite schedule in which nothing new is begun. -/
theorem full_ends_partial (hL : L.Ok) (h : Reach c (Pre c L.Takes) M) : ¬∃ f : Nat → MS L T, f 0 = M ∧ ∀ i, Goes c (Pre c L.Takes) (f i) (f (i + 1)) := by
  rintro ⟨f, h0, hf⟩
  have ha := goes_acc hL h
  have key : ∀ i, f i = M → False := by
    clear h0 h
    induction ha with
    | intro M _ ih =>
      intro i hi
      exact ih (f (i + 1)) (hi ▸ hf i) (i + 1) rfl
  exact key 0 h0

/-- However the calls in progress are scheduled, they get to the end: where nobody can go on, no call and no request is in progress; the exception is a
strategy that has ended the program. -/
theorem full_stuck_partial (hL : L.Ok) (h : Reach c (Pre c L.Takes) M) (hs : ∀ M', ¬Goes c (Pre c L.Takes) M M') :
    ((∀ t, M.thr t = none) ∧ ∀ r, M.job r = none) ∨ ∃ r j b, M.job r = some j ∧ b ≠ .ub ∧ j.todo = .fail b := by
  by_cases hb : ∃ r j b, M.job r = some j ∧ b ≠ .ub ∧ j.todo = .fail b
  · exact .inr hb
  · have hjobs : ∀ r, M.job r = none := by
      intro r
      cases hj : M.job r with
      | none => rfl
      | some j =>
        obtain ⟨I, _, hJ, _⟩ := facts hL h
        have hf : ∀ b, j.todo ≠ .fail b := fun b e => hb ⟨r, j, b, hj, fun e' => full_groups_partial hL h r ⟨j, hj, .inl (e' ▸ e)⟩, e⟩
        rcases job_moves (c := c) (Pre := Pre c L.Takes) hJ hj hf with ⟨M', h1⟩ | ⟨u, M', h1, h2⟩
        · exact absurd (.work (by rw [hj]; exact nofun) h1) (hs M')
        · refine absurd (.step ?_ h2) (hs M')
          rcases hJ.waits hj h1 with ⟨_, _, _, _, _, h3, -⟩ | ⟨_, _, _, _, _, _, h3, -⟩ <;> rw [h3] <;> exact nofun
    refine .inl ⟨fun t => ?_, hjobs⟩
    cases ht : M.thr t with
    | none => rfl
    | some x =>
      obtain ⟨cl, m⟩ := x
      rcases full_progress_partial hL h ht with ⟨M', h1⟩ | ⟨r, j, h1, -⟩
      · exact absurd (.step (by rw [ht]; exact nofun) h1) (hs M')
      · rw [hjobs r] at h1; cases h1

theorem quiet_stuck {P : List Rec → Call → Prop} (h1 : ∀ t, M.thr t = none) (h2 : ∀ r, M.job r = none) : ∀ M', ¬Goes c P M M' := by
  intro M' h
  cases h with
  | step h => exact h (h1 _)
  | work h => exact h (h2 _)

/-- The calls in progress can be brought to an end without anything new. -/
theorem full_finishes_partial (hL : L.Ok) (h : Reach c (Pre c L.Takes) M) :
    ∃ M', Leads c (Pre c L.Takes) M M' ∧ (((∀ t, M'.thr t = none) ∧ ∀ r, M'.job r = none) ∨ ∃ r j b, M'.job r = some j ∧ b ≠ .ub ∧ j.todo = .fail b) := by
  have ha := goes_acc hL h
  induction ha with
  | intro M _ ih =>
    by_cases hs : ∃ M1, Goes c (Pre c L.Takes) M M1
    · obtain ⟨M1, h1⟩ := hs
      obtain ⟨M', h2, h3⟩ := ih M1 h1 (h1.reach h)
      exact ⟨M', .go h1 h2, h3⟩
    · exact ⟨M, .here, full_stuck_partial hL h fun M' hg => hs ⟨M', hg⟩⟩

end

theorem leads_here {L : Lay} {T : Type} [DecidableEq T] {c : Mgr.Cfg} {P : List Rec → Call → Prop} {M : MS L T} (_ : Reach c P M) : Leads c P M M := .here

/-- The hypotheses of the theorems above: a call is in progress, its request has begun, and
every schedule from here ends; and `full_stuck_partial` is about states like the one after it. -/
example : ∃ M M' : MS exLay Nat, Reach Whole.exCfg exPre M ∧ M.thr 0 ≠ none ∧ M.job 1 ≠ none ∧ Leads Whole.exCfg exPre M M' ∧ M'.own 0 = [⟨4096, 100, 2⟩] ∧
    ∀ M2, ¬Goes Whole.exCfg exPre M' M2 := by
  have h0 : Reach Whole.exCfg exPre (MS.new exLay Nat) := .init
  have h := h0.work (.begin (r := 1) (o := hostOp .make) rfl rfl rfl)
  have h := h.work (.done (r := 1) rfl same_keeps)
  have h := h.step (.start (t := 0) (cl := .alloc 2 100) rfl ⟨by decide, rfl, takes_of (by decide)⟩)
  have h := h.step (.ask (t := 0) (r := 1) rfl rfl rfl ⟨rfl, by decide, by decide⟩)
  have l := (leads_here h) |>.then (.work (by nofun) (.grow (r := 1) (p := 4096) rfl (fresh_none (by decide)) same_keeps))
  have l := l.then (.step (by nofun) (.asked (t := 0) (r := 1) rfl rfl same_keeps))
  have l := l.then (.step (by nofun) (.act (t := 0) rfl .stat))
  have l := l.then (.step (by nofun) (.act (t := 0) rfl (.put (b := 0) (fun _ h => by cases h))))
  have l := l.then (.step (by nofun) (.ret (t := 0) rfl))
  refine ⟨_, _, h, nofun, nofun, l, rfl, ?_⟩
  refine quiet_stuck (fun t => ?_) fun r => ?_
  · match t with
    | 0 => rfl
    | _ + 1 => rfl
  · match r with
    | 0 => rfl
    | 1 => rfl
    | _ + 2 => rfl

end Umpire.Full
