import Verif.Full.Sim
import Verif.Threads.Props
import Verif.Whole.Props
/-!
# C66: threads that share the library see only their own allocations

C65 for the strategies themselves: any forest of strategies on every resource, groups of
strategies that work at the same time, requests that are interrupted by other threads
between any two calls to a memory resource.
-/
set_option autoImplicit false
set_option linter.unusedSimpArgs false
namespace Umpire.Full
open Umpire.Prog Umpire.Nest Umpire.Judy Umpire.Mgr Umpire.Whole
open Umpire.Thr (Act CP Call code after set Pre Fits target Inv ThrOk)

section
variable {L : Lay} {T : Type} [DecidableEq T] {c : Mgr.Cfg} {M M' : MS L T}

/-- `t` owns `r` and is not in a call that may give it up. -/
def Steady (M : MS L T) (t : T) (r : Rec) : Prop := r ∈ M.own t ∧ ∀ cl m, M.thr t = some (cl, m) → r.ptr ≠ target cl

/-- `r` is owned by a thread, which is not about to give it up, or on its way. -/
def Kept (M : MS L T) (r : Rec) : Prop := r ∈ M.box ∨ ∃ t, Steady M t r

theorem facts (hL : L.Ok) (h : Reach c (Pre c L.Takes) M) :
    ∃ I : Invs L, I.Ok ∧ J I M ∧ ∃ held th, R M held th ∧ Thr.Reach c (Pre c L.Takes) (abs M held th) := by
  have hI : Invs.Ok (fun r => Classical.choose (hL.inv r)) := fun r => Classical.choose_spec (hL.inv r)
  obtain ⟨held, th, h1, h2, h3⟩ := sim hL hI h
  exact ⟨_, hI, h3, held, th, h2, h1⟩

omit [DecidableEq T] in
theorem steady_abs {held : List Blk} {th : T → Option (Call × CP Nat)} (hr : R M held th) {t : T} {r : Rec} (h : Steady M t r) :
    Thr.Steady (abs M held th) t r := by
  refine ⟨h.1, fun cl m he => ?_⟩
  rcases hr.thr t with ⟨-, cl', s, p, n, k, h1, h2⟩ | ⟨-, h1⟩
  · have he' : th t = some (cl, m) := he
    rw [h2] at he'
    injection he' with he'
    injection he' with he' _
    subst he'
    exact h.2 _ _ h1
  · exact h.2 cl m (h1 ▸ he)

omit [DecidableEq T] in
theorem kept_abs {held : List Blk} {th : T → Option (Call × CP Nat)} (hr : R M held th) {r : Rec} (h : Kept M r) : Thr.Kept (abs M held th) r := by
  rcases h with h | ⟨t, h⟩
  · exact .inl h
  · exact .inr ⟨t, steady_abs hr h⟩

/-- Whatever the threads do, the next action of none of them is undefined: strategies are
asked for sizes they can handle and handed what their users have, memory is touched only if
it is allocated, records are read only while they exist. -/
theorem full_safe_partial (hL : L.Ok) (h : Reach c (Pre c L.Takes) M) {t : T} {cl : Call} {a : Act} {k : a.Ans → CP Nat}
    (ht : M.thr t = some (cl, .act a k)) : ¬M.Bad t a := by
  obtain ⟨I, hI, hJ, held, th, hr, hA⟩ := facts hL h
  obtain ⟨g, hg⟩ := Thr.reach_inv hA
  intro hbad
  have hn : NoJob M t := by
    cases a with
    | ask s n =>
      obtain ⟨x, hx, hj, -⟩ := hbad
      refine hJ.noJobAt ht fun y hy => ?_
      rw [hx] at hy
      injection hy with hy
      subst hy
      exact hj
    | hand s p n => exact hbad.1
    | _ =>
      refine hJ.noJob (fun _ _ _ _ e => ?_) fun _ _ _ _ _ e => ?_ <;>
      · rw [ht] at e
        simp at e
  have hth : (abs M held th).thr t = some (cl, .act a k) := (hr.same hn).trans ht
  have hw : Thr.Next c L.Takes (target cl) (g.lv (some t)) (g.tr t) (Thr.sgOf (abs M held th).sh) a
      fun x lv' tr' sg' => Thr.wp c L.Takes (target cl) (k x) lv' tr' sg' (Thr.Done (M.own t) cl) := by
    have := hg.thr t
    unfold ThrOk at this
    rw [hth] at this
    exact this
  have hs := (Thr.act_ok hg hth).1
  have hU : ∀ {p n}, Mgr.Usable held p n → n = 0 ∨ M.Usable p n := by
    rintro p n (h0 | ⟨b, hb, h1, h2⟩)
    · exact .inl h0
    · obtain ⟨x, h3, h4⟩ := (hr.held b).1 hb
      exact .inr ⟨b.own, x, h1, h3, _, h4, h2⟩
  cases a with
  | ask s n =>
    obtain ⟨x, hx, hj, hb, hc⟩ := hbad
    exact hc (Rel.can_alloc hx hb ⟨hw.1.2.1, hw.1.1⟩)
  | hand s p n =>
    obtain ⟨b, hb, rfl, rfl, hb3, -⟩ := hw
    obtain ⟨x, h3, h4⟩ := (hr.held b).1 (hg.mem.un_held (hg.tr.sub _ _ hb))
    refine hbad.2 ⟨x, b.size, h3, hb3, h4, fun hj => ?_⟩
    have hu := live_sub h4
    exact (L.arr x.1).can_dealloc.2 ⟨hJ.built x (fun e => by rw [e] at hu; cases hu), _, hu⟩
  | regrow s p n => exact hw
  | zeroQ p => exact hbad
  | cpy d s n =>
    refine hbad ?_
    by_cases h0 : n = 0
    · exact .inl h0
    · right
      have hs : Mgr.Usable held d n ∧ Mgr.Usable held s n ∧ (n = 0 ∨ Disj d n s n) := Classical.not_not.1 hs
      refine ⟨(hU hs.1).resolve_left h0, (hU hs.2.1).resolve_left h0, hs.2.2.resolve_left h0⟩
  | fill p v n => exact hbad (hU (Classical.not_not.1 hs))
  | stat s f => exact hbad
  | put p r => exact hbad
  | pull p => exact hs hbad
  | seek p => exact hbad
  | look x => exact hs hbad
  | peek x => exact hw

/-- No group of strategies does anything undefined, wherever its requests are interrupted. -/
theorem full_groups_partial (hL : L.Ok) (h : Reach c (Pre c L.Takes) M) (r : Nat) : ¬M.Wrong r := by
  obtain ⟨I, hI, hJ, -⟩ := facts hL h
  rintro ⟨j, hj, hw⟩
  have hb : Busy (I r) (M.S.f r) (M.S.H r) j.task j.todo := by
    have := hJ.grp r
    unfold Ready at this
    rw [hj] at this
    exact this
  have hwp := hb.wpa
  rcases hw with hw | ⟨p, n, k, hw, hp⟩
  · rw [hw] at hwp
    exact hwp rfl
  · rw [hw] at hwp
    exact hp hwp.1.1

/-- Every result is right for the thread that gets it. -/
theorem full_results_partial (hL : L.Ok) (h : Reach c (Pre c L.Takes) M) {t : T} {cl : Call} {o : Option Nat} (ht : M.thr t = some (cl, .ret o)) :
    Fits (M.own t) cl o := by
  obtain ⟨I, hI, hJ, held, th, hr, hA⟩ := facts hL h
  have hj : NoJob M t := hJ.noJob (fun _ _ _ _ e => by rw [ht] at e; injection e with e; injection e with _ e; cases e)
    fun _ _ _ _ _ e => by rw [ht] at e; injection e with e; injection e with _ e; cases e
  exact Thr.thr_results_partial hA ((hr.same hj).trans ht)

/-- The allocations of all threads are disjoint. -/
theorem full_disjoint_partial (hL : L.Ok) (h : Reach c (Pre c L.Takes) M) {r r' : Rec} (hr : Kept M r) (hr' : Kept M r') (hne : r ≠ r') :
    Disj r.ptr (max 1 r.size) r'.ptr (max 1 r'.size) := by
  obtain ⟨I, hI, hJ, held, th, hR, hA⟩ := facts hL h
  exact Thr.thr_disjoint_partial hA (kept_abs hR hr) (kept_abs hR hr') hne

/-- Nothing has two owners. -/
theorem full_one_owner_partial (hL : L.Ok) (h : Reach c (Pre c L.Takes) M) {t t' : T} {r : Rec} (hr : Steady M t r) :
    r ∉ M.box ∧ (Steady M t' r → t = t') := by
  obtain ⟨I, hI, hJ, held, th, hR, hA⟩ := facts hL h
  have := Thr.thr_one_owner_partial (t' := t') hA (steady_abs hR hr)
  exact ⟨this.1, fun h' => this.2 (steady_abs hR h')⟩

/-- Where the memory of a record is. -/
def origin (r : Rec) : Nat := if r.size = 0 then zero else r.tag

/-- At every moment, also in the middle of requests: the allocation map knows every
allocation, the strategy has it among the allocations of its users, and it lies in memory
that the group of the strategy holds from the resource. -/
theorem full_known_partial (hL : L.Ok) (h : Reach c (Pre c L.Takes) M) {r : Rec} (hr : Kept M r) :
    (M.am.findRecord r.ptr).2 = some r ∧ ∃ x, L.place (origin r) = some x ∧ (r.ptr, max 1 r.size) ∈ M.live x ∧
      ∃ o ∈ M.S.H x.1, Within r.ptr (max 1 r.size) o.1 o.2 := by
  obtain ⟨I, hI, hJ, held, th, hR, hA⟩ := facts hL h
  obtain ⟨g, hg⟩ := Thr.reach_inv hA
  have hl := Thr.kept_lv hg (kept_abs hR hr)
  refine ⟨(Thr.thr_known_partial hA (kept_abs hR hr)).1, ?_⟩
  have hb := hg.mem.mem_held hl
  obtain ⟨x, h1, h2⟩ := (hR.held _).1 hb
  have e : (blkOf r).own = origin r ∧ (blkOf r).size = max 1 r.size := by
    unfold blkOf origin
    by_cases h0 : r.size = 0
    · rw [if_pos h0, if_pos h0, h0]; exact ⟨rfl, rfl⟩
    · rw [if_neg h0, if_neg h0]
      refine ⟨rfl, ?_⟩
      dsimp only
      omega
  rw [blkOf_ptr, e.2] at h2
  rw [e.1] at h1
  exact ⟨x, h1, h2, (hJ.cov hI h2).2⟩

theorem kept_keeps (hL : L.Ok) (h : Reach c (Pre c L.Takes) M) {m : Nat → Nat} (hm : M.Keeps m) {r : Rec} (hr : Kept M r) {q : Nat} (h1 : r.ptr ≤ q)
    (h2 : q < r.ptr + r.size) : m q = M.S.mem q := by
  obtain ⟨-, x, -, hx, -⟩ := full_known_partial hL h hr
  exact hm x _ hx q h1 (by dsimp only; omega)

/-- A step of a thread leaves the bytes of the allocations of the others alone. -/
theorem full_bytes_partial (hL : L.Ok) (h : Reach c (Pre c L.Takes) M) {t : T} (hs : Step c (Pre c L.Takes) t M M') {r : Rec}
    (hr : r ∈ M.box ∨ ∃ u, u ≠ t ∧ Steady M u r) {q : Nat} (h1 : r.ptr ≤ q) (h2 : q < r.ptr + r.size) : M'.S.mem q = M.S.mem q := by
  have hk : Kept M r := hr.imp id fun ⟨u, _, hu⟩ => ⟨u, hu⟩
  obtain ⟨I, hI, hJ, held, th, hR, hA⟩ := facts hL h
  have hr' : r ∈ (abs M held th).box ∨ ∃ u, u ≠ t ∧ Thr.Steady (abs M held th) u r := hr.imp id fun ⟨u, h, hu⟩ => ⟨u, h, steady_abs hR hu⟩
  cases hs with
  | start | ret | give | take | idle | ask | hand => rfl
  | @asked cl s n k i p v u m _ _ _ hm => exact kept_keeps hL h hm hk h1 h2
  | @handed cl s p n k i p' v u m _ _ _ hm => exact kept_keeps hL h hm hk h1 h2
  | @write x m _ hn hx hm =>
    have hj : NoJob M t := hJ.noJob (fun _ _ _ _ e => by rw [hn] at e; cases e) fun _ _ _ _ _ e => by rw [hn] at e; cases e
    exact Thr.thr_bytes_partial hA (Thr.Step.write (S := abs M held th) (t := t) ((hR.same hj).trans hn) hx hm) hr' h1 h2
  | @act cl a k x _ M1 ht hl =>
    have hj : NoJob M t := by
      refine hJ.noJob (fun _ _ _ _ e => ?_) fun _ _ _ _ _ e => ?_ <;>
      · rw [ht] at e
        injection e with e
        injection e with _ e
        injection e with e _
        subst e
        cases hl
    obtain ⟨h3, -⟩ := local_sim hI hJ hR hl
    exact Thr.thr_bytes_partial hA (Thr.Step.act (S := abs M held th) (t := t) ((hR.same hj).trans ht) h3) hr' h1 h2

/-- What a group of strategies does leaves the bytes of all allocations alone; in particular
pools may be released and coalesced at any time. -/
theorem full_work_bytes_partial (hL : L.Ok) (h : Reach c (Pre c L.Takes) M) {i : Nat} (hw : Work i M M') {r : Rec} (hr : Kept M r) {q : Nat} (h1 : r.ptr ≤ q)
    (h2 : q < r.ptr + r.size) : M'.S.mem q = M.S.mem q := by
  cases hw with
  | grow _ _ hm => exact kept_keeps hL h hm hr h1 h2
  | refuse _ hm => exact kept_keeps hL h hm hr h1 h2
  | shrink _ hm => exact kept_keeps hL h hm hr h1 h2
  | begin => rfl
  | done _ hm => exact kept_keeps hL h hm hr h1 h2

/-- When no call is in progress, the allocations of the users of the strategies and the
records are those that the threads own, also while pools are being released or coalesced. -/
theorem full_quiet_partial (hL : L.Ok) (h : Reach c (Pre c L.Takes) M) (hq : ∀ t, M.thr t = none) :
    (∀ s x u, L.place s = some x → u ∈ M.S.user x → ∃ r, Kept M r ∧ u = (r.ptr, max 1 r.size)) ∧
    ∀ p r, p < 2 ^ 64 → (M.am.findRecord p).2 = some r → Kept M r ∧ Contains r p := by
  obtain ⟨I, hI, hJ, held, th, hR, hA⟩ := facts hL h
  have hth : ∀ t, (abs M held th).thr t = none := by
    intro t
    rcases hR.thr t with ⟨-, cl, s, p, n, k, h1, -⟩ | ⟨-, h1⟩
    · rw [hq t] at h1; cases h1
    · exact h1.trans (hq t)
  have hk : ∀ r, Thr.Kept (abs M held th) r → Kept M r := by
    rintro r (hb | ⟨t, ht⟩)
    · exact .inl hb
    · exact .inr ⟨t, ht.1, fun cl m he => by rw [hq t] at he; cases he⟩
  obtain ⟨h1, h2⟩ := Thr.thr_quiet_partial hA hth
  refine ⟨fun s x u hx hu => ?_, fun p r hp hf => ?_⟩
  · have hl : u ∈ M.live x := by
      obtain ⟨i, q⟩ := x
      cases hj : M.job i with
      | none => rw [live_free hj]; exact hu
      | some j =>
        rw [live_job hj]
        have hs := hJ.jobs i j hj
        obtain ⟨who, task, todo⟩ := j
        cases who with
        | none =>
          cases task with
          | use q u => exact hs.elim
          | other o => exact hu
        | some t =>
          rcases hJ.waits hj rfl with ⟨_, _, _, _, _, h3, -⟩ | ⟨_, _, _, _, _, _, h3, -⟩
          · rw [hq t] at h3; cases h3
          · rw [hq t] at h3; cases h3
    obtain ⟨r, hr, h4, h5⟩ := h1 ⟨s, u.1, u.2⟩ ((hR.held _).2 ⟨x, hx, hl⟩)
    exact ⟨r, hk r hr, Prod.ext h4 h5⟩
  · obtain ⟨h3, h4⟩ := h2 p r hp hf
    exact ⟨hk r h3, h4⟩
/-! ## Nobody waits forever for nothing -/

/-- The group whose request the thread has to wait for. -/
def Needs (L : Lay) : CP Nat → Nat → Prop
  | .act (.ask s _) _, r => ∃ q, L.place s = some ⟨r, q⟩
  | .act (.hand s _ _) _, r => ∃ q, L.place s = some ⟨r, q⟩
  | .act (.zeroQ _) _, r => r = 0
  | _, _ => False

/-- The request in progress can go on. -/
def Moves (c : Mgr.Cfg) (Pre : List Rec → Call → Prop) (M : MS L T) (r : Nat) (j : Job T (L.arr r)) : Prop :=
  (∃ M', Work r M M') ∨ ∃ u M', j.who = some u ∧ Step c Pre u M M'

theorem job_moves {I : Invs L} (hJ : J I M) {Pre : List Rec → Call → Prop} {r : Nat} {j : Job T (L.arr r)} (hj : M.job r = some j) (hb : ∀ b, j.todo ≠ .fail b) :
    Moves c Pre M r j := by
  have hs := hJ.jobs r j hj
  have hk : M.Keeps M.S.mem := fun _ _ _ _ _ _ => rfl
  obtain ⟨who, task, todo⟩ := j
  cases todo with
  | fail b => exact absurd rfl (hb b)
  | alloc n k => exact .inl ⟨_, .refuse hj hk⟩
  | dealloc p n k => exact .inl ⟨_, .shrink hj hk⟩
  | ret a =>
    obtain ⟨v, u⟩ := a
    cases who with
    | none =>
      cases task with
      | use q u => exact hs.elim
      | other o => exact .inl ⟨_, .done hj hk⟩
    | some t =>
      cases task with
      | other o => exact hs.elim
      | use q w =>
        cases w with
        | alloc n =>
          obtain ⟨cl, s, k, h1, -⟩ := hs
          exact .inr ⟨t, _, rfl, .asked h1 hj hk⟩
        | dealloc p =>
          obtain ⟨cl, s, n, k, h1, -⟩ := hs
          exact .inr ⟨t, _, rfl, .handed h1 hj hk⟩

theorem unused_block {S : Thr.Sh} {live : List Rec} (h : Thr.Cells S live) : ∃ b, ∀ q, b ∉ S.top q := by
  have hl : ∀ l : List Rec, ∃ b, ∀ r ∈ l, ∀ x ∈ S.top r.ptr, x < b := by
    intro l
    induction l with
    | nil => exact ⟨0, fun r hr => by cases hr⟩
    | cons r l ih =>
      obtain ⟨b, hb⟩ := ih
      have hm : ∀ l : List Nat, ∃ b, ∀ x ∈ l, x < b := by
        intro l
        induction l with
        | nil => exact ⟨0, fun r hr => by cases hr⟩
        | cons x l ih =>
          obtain ⟨b, hb⟩ := ih
          refine ⟨b + x + 1, fun y hy => ?_⟩
          rcases List.mem_cons.1 hy with rfl | hy
          · omega
          · have := hb y hy; omega
      obtain ⟨b', hb'⟩ := hm (S.top r.ptr)
      refine ⟨b + b', fun r' hr' x hx => ?_⟩
      rcases List.mem_cons.1 hr' with rfl | hr'
      · have := hb' x hx; omega
      · have := hb r' hr' x hx; omega
  obtain ⟨b, hb⟩ := hl live
  refine ⟨b, fun q hq => ?_⟩
  by_cases hx : ∃ r ∈ live, r.ptr = q
  · obtain ⟨r, hr, rfl⟩ := hx
    have := hb r hr b hq
    omega
  · rw [h.none q fun r hr e => hx ⟨r, hr, e⟩] at hq
    cases hq

/-- A thread in a call can go on, or waits for a group whose request can go on; the exception
is a strategy that has ended the program (`std::terminate`, unbounded recursion). -/
theorem full_progress_partial (hL : L.Ok) (h : Reach c (Pre c L.Takes) M) {t : T} {cl : Call} {m : CP Nat} (ht : M.thr t = some (cl, m)) :
    (∃ M', Step c (Pre c L.Takes) t M M') ∨ ∃ r j, M.job r = some j ∧ Needs L m r ∧ (Moves c (Pre c L.Takes) M r j ∨ ∃ b, b ≠ .ub ∧ j.todo = .fail b) := by
  obtain ⟨I, hI, hJ, held, th, hR, hA⟩ := facts hL h
  have hwait : ∀ {r j}, M.job r = some j → Needs L m r →
      ∃ r j, M.job r = some j ∧ Needs L m r ∧ (Moves c (Pre c L.Takes) M r j ∨ ∃ b, b ≠ .ub ∧ j.todo = .fail b) := by
    intro r j hj hn
    refine ⟨r, j, hj, hn, ?_⟩
    by_cases hb : ∀ b, j.todo ≠ .fail b
    · exact .inl (job_moves hJ hj hb)
    · obtain ⟨b, hb⟩ := Classical.not_forall.1 hb
      have hb := Classical.not_not.1 hb
      exact .inr ⟨b, fun e => full_groups_partial hL h r ⟨j, hj, .inl (e ▸ hb)⟩, hb⟩
  have hsafe : ∀ {a k}, m = .act a k → ¬M.Bad t a := fun e => full_safe_partial hL h (e ▸ ht)
  cases m with
  | ret o => exact .inl ⟨_, .ret ht⟩
  | act a k =>
    have hs := hsafe rfl
    cases a with
    | ask s n =>
      cases hx : L.place s with
      | none => exact .inl ⟨_, .idle ht fun x hx' => by rw [hx] at hx'; cases hx'⟩
      | some x =>
        obtain ⟨r, q⟩ := x
        cases hj : M.job r with
        | some j => exact .inr (hwait hj ⟨q, hx⟩)
        | none =>
          cases hb : M.S.built ⟨r, q⟩ with
          | false =>
            refine .inl ⟨_, .idle ht fun x hx' => ?_⟩
            rw [hx] at hx'
            injection hx' with hx'
            subst hx'
            exact ⟨hj, hb⟩
          | true =>
            refine .inl ⟨_, .ask ht hx hj ?_⟩
            exact Classical.not_not.1 fun hc => hs ⟨_, hx, hj, hb, hc⟩
    | hand s p n =>
      by_cases hn : ∀ r j, M.job r = some j → j.who ≠ some t
      · obtain ⟨⟨r, q⟩, n', hx, rfl, hlv, hc⟩ := Classical.not_not.1 fun hc => hs ⟨hn, hc⟩
        cases hj : M.job r with
        | some j => exact .inr (hwait hj ⟨q, hx⟩)
        | none => exact .inl ⟨_, .hand ht hx hj (live_sub hlv) (hc hj)⟩
      · obtain ⟨r, hn⟩ := Classical.not_forall.1 hn
        obtain ⟨j, hn⟩ := Classical.not_forall.1 hn
        obtain ⟨hj, hw⟩ := Classical.not_imp.1 hn
        rcases hJ.waits hj (Classical.not_not.1 hw) with ⟨_, s', _, _, _, h3, -⟩ | ⟨_, s', _, _, _, q, h3, h4, -⟩
        · rw [ht] at h3
          injection h3 with h3
          injection h3 with _ h3
          injection h3 with h3 _
          cases h3
        · rw [ht] at h3
          injection h3 with h3
          injection h3 with _ h3
          injection h3 with h3 _
          injection h3 with h3 _
          subst h3
          exact .inr (hwait hj ⟨q, h4⟩)
    | regrow s p n => exact absurd trivial hs
    | zeroQ p =>
      cases hj : M.job 0 with
      | some j => exact .inr (hwait hj rfl)
      | none => exact .inl ⟨_, .act ht (.zeroQ hj)⟩
    | cpy d s n => exact .inl ⟨_, .act ht .cpy⟩
    | fill p v n => exact .inl ⟨_, .act ht .fill⟩
    | stat s f => exact .inl ⟨_, .act ht .stat⟩
    | put p r =>
      obtain ⟨g, hg⟩ := Thr.reach_inv hA
      obtain ⟨b, hb⟩ := unused_block hg.cells
      exact .inl ⟨_, .act ht (.put hb)⟩
    | pull p =>
      cases hp : M.am.remove p with
      | ok a r => exact .inl ⟨_, .act ht (.pullOk hp)⟩
      | throws a => exact .inl ⟨_, .act ht (.pullNone hp)⟩
      | ub => exact absurd hp hs
    | seek p =>
      cases hp : (M.am.findRecord p).2 with
      | some r => exact .inl ⟨_, .act ht (.seekOk hp)⟩
      | none => exact .inl ⟨_, .act ht (.seekNone hp)⟩
    | look x => exact .inl ⟨_, .act ht .look⟩
    | peek x => exact absurd trivial hs
end

/-! ## A reachable case -/

abbrev exPre := Pre Whole.exCfg exLay.Takes

def hostOp (o : NodeCmd PoolOp ((NodeCmd PoolOp (NodeCmd PoolOp Empty)) ⊕ (NodeCmd PoolOp (NodeCmd PoolOp Empty)))) : (exLay.arr 1).sys.Cmd := o
def deviceOp (o : NodeCmd PoolOp Empty) : (exLay.arr 2).sys.Cmd := o

theorem fresh_put {p n r : Nat} {H : Nat → Held} {O : Held} (h : FreshAll p n H) (ho : ∀ x ∈ O, Disj p n x.1 x.2) : FreshAll p n (Prog.put H r O) := by
  refine ⟨h.1, h.2.1, fun k x hx => ?_⟩
  by_cases hk : k = r
  · rw [hk, put_same] at hx; exact ho x hx
  · rw [put_ne hk] at hx; exact h.2.2 k x hx

theorem fresh_none {p n : Nat} (h : p ≠ 0 ∧ p + n ≤ AMax) : FreshAll p n fun _ => [] := ⟨h.1, h.2, fun _ x hx => by cases hx⟩

theorem same_keeps {L : Lay} {M : MS L Nat} : M.Keeps M.S.mem := fun _ _ _ _ _ _ => rfl

/-- The hypotheses of the theorems above: thread 0 has an allocation from HOST and is in the
middle of one from DEVICE, while thread 1 waits for HOST inside an allocation from the
`QuickPool` on it. -/
example : ∃ M : MS exLay Nat, Reach Whole.exCfg exPre M ∧ Steady M 0 ⟨4096, 100, 2⟩ ∧
    (∃ n k, M.job 1 = some ⟨some 1, .use (hostPos (some (.inl none))) (.alloc 40), .alloc n k⟩) ∧ ∃ p, M.job 2 = some ⟨some 0, .use (devicePos none) (.alloc 64), .ret (some 65536, p)⟩ := by
  have h0 : Reach Whole.exCfg exPre (MS.new exLay Nat) := .init
  have h := h0.work (.begin (r := 1) (o := hostOp .make) rfl rfl rfl)
  have h := h.work (.done (r := 1) rfl same_keeps)
  have h := h.work (.begin (r := 2) (o := deviceOp .make) rfl rfl rfl)
  have h := h.work (.done (r := 2) rfl same_keeps)
  have h := h.work (.begin (r := 1) (o := hostOp (.down (.inl .make))) rfl rfl ⟨rfl, rfl⟩)
  have h := h.work (.done (r := 1) rfl same_keeps)
  have h := h.step (.start (t := 0) (cl := .alloc 2 100) rfl ⟨by decide, rfl, takes_of (by decide)⟩)
  have h := h.step (.ask (t := 0) (r := 1) rfl rfl rfl ⟨rfl, by decide, by decide⟩)
  have h := h.work (.grow (r := 1) (p := 4096) rfl (fresh_none (by decide)) same_keeps)
  have h := h.step (.asked (t := 0) (r := 1) rfl rfl same_keeps)
  have h := h.step (.act (t := 0) rfl .stat)
  have h := h.step (.act (t := 0) rfl (.put (b := 0) (fun _ h => by cases h)))
  have h := h.step (.ret (t := 0) rfl)
  have h := h.step (.start (t := 0) (cl := .alloc 7 64) rfl ⟨by decide, rfl, takes_of (by decide)⟩)
  have h := h.step (.start (t := 1) (cl := .alloc 3 40) rfl ⟨by decide, rfl, takes_of (by decide)⟩)
  have h := h.step (.ask (t := 1) (r := 1) rfl rfl rfl ⟨rfl, rfl, by decide, by decide⟩)
  have h := h.step (.ask (t := 0) (r := 2) rfl rfl rfl ⟨rfl, by decide, by decide⟩)
  have h := h.work (.grow (r := 2) (p := 65536) rfl (fresh_put (fresh_none (by decide)) (by decide)) same_keeps)
  refine ⟨_, h, ⟨?_, fun cl m he => ?_⟩, ⟨_, _, rfl⟩, ⟨_, rfl⟩⟩
  · exact List.mem_singleton.2 rfl
  · injection he with he
    injection he with he _
    subst he
    decide

/-- The hypotheses of `full_quiet_partial`: no thread is in a call, one has an allocation, and
the `QuickPool` is being constructed. -/
example : ∃ M : MS exLay Nat, Reach Whole.exCfg exPre M ∧ (∀ t, M.thr t = none) ∧ Kept M ⟨4096, 100, 2⟩ ∧ M.job 1 ≠ none ∧
    (4096, 100) ∈ M.S.user ⟨1, hostPos none⟩ := by
  have h0 : Reach Whole.exCfg exPre (MS.new exLay Nat) := .init
  have h := h0.work (.begin (r := 1) (o := hostOp .make) rfl rfl rfl)
  have h := h.work (.done (r := 1) rfl same_keeps)
  have h := h.step (.start (t := 0) (cl := .alloc 2 100) rfl ⟨by decide, rfl, takes_of (by decide)⟩)
  have h := h.step (.ask (t := 0) (r := 1) rfl rfl rfl ⟨rfl, by decide, by decide⟩)
  have h := h.work (.grow (r := 1) (p := 4096) rfl (fresh_none (by decide)) same_keeps)
  have h := h.step (.asked (t := 0) (r := 1) rfl rfl same_keeps)
  have h := h.step (.act (t := 0) rfl .stat)
  have h := h.step (.act (t := 0) rfl (.put (b := 0) (fun _ h => by cases h)))
  have h := h.step (.ret (t := 0) rfl)
  have h := h.work (.begin (r := 1) (o := hostOp (.down (.inl .make))) rfl rfl ⟨rfl, rfl⟩)
  refine ⟨_, h, fun t => ?_, .inr ⟨0, List.mem_singleton.2 rfl, fun cl m he => by cases he⟩, nofun, List.mem_singleton.2 rfl⟩
  match t with
  | 0 => rfl
  | _ + 1 => rfl

end Umpire.Full
