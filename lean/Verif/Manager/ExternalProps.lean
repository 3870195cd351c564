import Verif.Manager.ExternalHist
/-!
# C77: memory of the user that is registered with Umpire

`HistX Pl c u t rm w` (`Verif.Manager.ExternalHist`) says that the calls `t` can lead to the
state `rm`, `w`.  `liveX c t` lists what is live according to the calls and their outcomes
alone: what was allocated and not freed since, and what was registered and not deregistered
since; `extX c t` lists the latter.
-/
set_option autoImplicit false
set_option linter.unusedSimpArgs false
namespace Umpire.Mgr
open Umpire.Judy

def liveX (c : Cfg) (t : List EvX) : List Rec := (ghostX c t).g.live
def extX (c : Cfg) (t : List EvX) : List Rec := (ghostX c t).ext

/-- The owner `u` of the memory of the user is no strategy. -/
def Foreign (Pl : Nat → Nat → Prop) (u : Nat) : Prop := u ≠ zero ∧ ∀ q, ¬Pl u q

section
variable {Pl : Nat → Nat → Prop} {B : Nat → Prop} {c : Cfg} {u : Nat} {rm : RM} {w : World} {t : List EvX}

theorem histX_mem (ha : Aligned Pl B) (hu : Foreign Pl u) (hh : HistX Pl c u t rm w) :
    MemOk Pl B c rm.amap (asif u (extX c t) w) (liveX c t) (ghostX c t).g.un := by
  obtain ⟨st, _, hO⟩ := (histX_ok ha hu.2 hu.1 hh).ok
  exact hO.mem

theorem MemOk.answers_base {v v' : World} {live : List Rec} {un : List Blk} (h : MemOk Pl B c rm.amap v live un) {r : Rec} (hr : r ∈ live) :
    Answers Pl rm v' r.ptr (some r) :=
  answers_of ((h.find_sound (by have := h.rec_lt hr; omega)).2.1 r hr rfl)

theorem MemOk.answers_none {v v' : World} {live : List Rec} {un : List Blk} (h : MemOk Pl B c rm.amap v live un) {q : Nat} (hq : q < 2 ^ 64)
    (hn : ∀ r ∈ live, ¬Contains r q) : Answers Pl rm v' q none := by
  apply answers_of
  cases hf : (rm.amap.findRecord q).2 with
  | none => rfl
  | some r => exact absurd ((h.find_sound hq).1 r hf).2 (hn r ((h.find_sound hq).1 r hf).1)

/-- **C77**, queries: memory registered and not deregistered is reported, at its first
address, with the size and the allocator of its record, like the live allocations;
addresses in neither are unknown. -/
theorem external_known_partial (hu : Foreign Pl u) (hh : HistX Pl c u t rm w) :
    (∀ r ∈ extX c t, r ∈ liveX c t) ∧ (∀ r ∈ liveX c t, Answers Pl rm w r.ptr (some r)) ∧
    ∀ q, q < 2 ^ 64 → (∀ r ∈ liveX c t, ¬Contains r q) → Answers Pl rm w q none :=
  have h := histX_mem (aligned_none Pl) hu hh
  ⟨fun r hr => ((histX_ok (aligned_none Pl) hu.2 hu.1 hh).ext r hr).1, fun _ hr => h.answers_base hr, fun _ hq hn => h.answers_none hq hn⟩

/-- **C77**, queries at every address, when blocks are placed at multiples of eight. -/
theorem external_interior_partial {Z : Nat → Prop} (hz : Zoned Pl Z) (hu : Foreign Pl u) (hh : HistX Pl c u t rm w) :
    ∀ r ∈ liveX c t, ∀ q, Contains r q → Answers Pl rm w q (some r) := by
  have ha : Aligned Pl fun b => ¬Z b := fun s p hp hb => (hz s p hp).2 fun h => hb ((hz s p hp).1.1 h)
  have h := histX_mem ha hu hh
  intro r hr q hq
  have hlt := h.rec_lt hr
  have h1 := hq.1
  have h2 := hq.2
  by_cases h0 : r.size = 0
  · have : q = r.ptr := by omega
    rw [this]; exact h.answers_base hr
  · refine answers_of ((h.find_sound (by omega)).2.2 r hr ?_ hq)
    have hb : blkOf r = ⟨r.tag, r.ptr, r.size⟩ := by unfold blkOf; rw [if_neg h0]
    have hp := h.pl _ (h.mem_held hr)
    rw [hb] at hp
    exact fun hZ => (h.tag r hr).1 ((hz _ _ hp).1.2 hZ)

/-- **C77**: registering memory that is disjoint from everything held succeeds and changes no
statistics and no memory; from then on it is known, and everything else is as before. -/
theorem external_register (hu : Foreign Pl u) (hh : HistX Pl c u t rm w) {r : Rec} (h1 : 1 ≤ r.size) (h2 : r.tag ≠ zero) (h3 : r.tag ≠ u)
    (h4 : c.tracked r.tag = true) (h5 : Pl r.tag r.ptr) (h6 : Fresh r.ptr r.size (ranges w.held)) :
    Sure Pl (registerExternal r.ptr r) rm w fun o rm' w' => o = some () ∧ rm'.st = rm.st ∧ w' = w ∧ Answers Pl rm' w' r.ptr (some r) ∧
      ∀ x ∈ liveX c t, Answers Pl rm' w' x.ptr (some x) := by
  have ha := aligned_none Pl
  refine ⟨fun hg => ?_, fun o rm' w' hr => ?_⟩
  · unfold registerExternal register at hg
    rw [if_neg h6.1] at hg
    cases hg
  · have hx := okX_reg ha (histX_ok ha hu.2 hu.1 hh) h1 h2 h3 h4 h5 h6 hr
    obtain ⟨st, _, hO⟩ := hx.2.2.2.ok
    refine ⟨hx.1, hx.2.1, hx.2.2.1, ?_, fun y hy => ?_⟩
    · exact MemOk.answers_base (rm := rm') (live := r :: liveX c t) hO.mem List.mem_cons_self
    · exact MemOk.answers_base (rm := rm') (live := r :: liveX c t) hO.mem (List.mem_cons_of_mem _ hy)

/-- **C77**: registering the null pointer throws and changes nothing. -/
theorem external_register_null {r : Rec} :
    Sure Pl (registerExternal 0 r) rm w fun o rm' w' => o = none ∧ rm' = rm ∧ w' = w := by
  apply sure_of
  show MP.wp Pl (register 0 r rm) w _
  unfold register
  rw [if_pos rfl]
  exact ⟨rfl, rfl, rfl⟩

/-- **C77**: deregistering external memory returns its record and changes no statistics and no
memory; its addresses are unknown afterwards, and everything else is as before. -/
theorem external_deregister (hu : Foreign Pl u) (hh : HistX Pl c u t rm w) {r : Rec} (hr : r ∈ extX c t) :
    Sure Pl (deregisterExternal r.ptr) rm w fun o rm' w' => o = some r ∧ rm'.st = rm.st ∧ w' = w ∧
      (∀ q, Contains r q → Answers Pl rm' w' q none) ∧ ∀ x ∈ liveX c t, x ≠ r → Answers Pl rm' w' x.ptr (some x) := by
  have ha := aligned_none Pl
  have hX := histX_ok ha hu.2 hu.1 hh
  have hm := histX_mem ha hu hh
  have hl := (hX.ext r hr).1
  obtain ⟨a', f1, _⟩ := hm.dereg hl
  refine ⟨fun hg => ?_, fun o rm' w' hrun => ?_⟩
  · unfold deregisterExternal deregister at hg
    rw [f1] at hg
    cases hg
  · have hx := okX_unreg_hit hX hr hrun
    obtain ⟨st, _, hO⟩ := hx.2.2.2.ok
    have hlt := hm.rec_lt hl
    refine ⟨hx.1, hx.2.1, hx.2.2.1, fun q hq => ?_, fun y hy hne => ?_⟩
    · have h1 := hq.1
      have h2 := hq.2
      refine MemOk.answers_none (rm := rm') (q := q) (live := dropR r.ptr (liveX c t)) hO.mem (by omega) fun x hx hc => ?_
      have hx' := mem_dropR.1 hx
      have : x = r := apart_eq hm.apart hx'.1 hl hc hq
      exact hx'.2 (by rw [this])
    · exact MemOk.answers_base (rm := rm') (live := dropR r.ptr (liveX c t)) hO.mem (mem_dropR.2 ⟨hy, fun he => hne (nodup_map_inj hm.liveNodup hy hl he)⟩)

/-- **C77**: deregistering an address at which nothing starts throws; everything is as
before. -/
theorem external_deregister_unknown (hu : Foreign Pl u) (hh : HistX Pl c u t rm w) {p : Nat} (hp : p < 2 ^ 64) (hn : ∀ r ∈ liveX c t, r.ptr ≠ p) :
    Sure Pl (deregisterExternal p) rm w fun o rm' w' => o = none ∧ rm'.st = rm.st ∧ w' = w ∧ ∀ x ∈ liveX c t, Answers Pl rm' w' x.ptr (some x) := by
  have ha := aligned_none Pl
  have hX := histX_ok ha hu.2 hu.1 hh
  obtain ⟨a', f1, m1⟩ := (histX_mem ha hu hh).dereg_none hp hn
  refine ⟨fun hg => ?_, fun o rm' w' hrun => ?_⟩
  · unfold deregisterExternal deregister at hg
    rw [f1] at hg
    cases hg
  · have hx := okX_unreg_miss hX hp hn hrun
    refine ⟨hx.1, hx.2.1, hx.2.2.1, fun y hy => ?_⟩
    unfold deregisterExternal deregister at hrun
    rw [f1] at hrun
    cases hrun
    exact MemOk.answers_base (rm := { rm with amap := a' }) m1 hy

/-! ## Copying and setting -/

theorem find_at {a : AMap} {v : World} {live : List Rec} {un : List Blk} (h : MemOk Pl B c a v live un) {r : Rec} {q : Nat} (hr : r ∈ live) (hf : Findable B r q) :
    ∃ a', a.findRecord q = (a', some r) ∧ MemOk Pl B c a' v live un := by
  have hlt := h.rec_lt hr
  have h1 := hf.1.1
  have h2 := hf.1.2
  have hs := h.find_sound (q := q) (by omega)
  refine ⟨(a.findRecord q).1, Prod.ext rfl ?_, h.bytes v.mem (find_same _ _).1 (find_same _ _).2.1 (find_same _ _).2.2⟩
  rcases hf.2 with he | hb
  · exact hs.2.1 r hr he.symm
  · exact hs.2.2 r hr hb hf.1

theorem MemOk.usable {a : AMap} {v : World} {live : List Rec} {un : List Blk} (h : MemOk Pl B c a v live un) {r : Rec} (hr : r ∈ live) {p n : Nat}
    (hp : r.ptr ≤ p) (hn : p + n ≤ r.ptr + r.size) : Usable v.held p n := by
  by_cases h0 : n = 0
  · exact Or.inl h0
  · refine Or.inr ⟨blkOf r, h.mem_held hr, ?_, ?_⟩
    · unfold blkOf; rw [if_neg (by omega)]; exact (h.tag r hr).1
    · have := (blkOf_size r).1
      unfold Within; rw [blkOf_ptr]; omega

/-- **C77**, copies, provided that the source range lies in its allocation and does not
overlap the destination range (the code checks neither), for any two of the live allocations
and the external memory. -/
theorem external_copy_partial (ha : Aligned Pl B) (hu : Foreign Pl u) (hh : HistX Pl c u t rm w) {rs rd : Rec} {d s n : Nat}
    (hrs : rs ∈ liveX c t) (hrd : rd ∈ liveX c t) (hfs : Findable B rs s) (hfd : Findable B rd d)
    (hsrc : s + copyLen rs s n ≤ rs.ptr + rs.size) (hdis : copyLen rs s n = 0 ∨ Disj d (copyLen rs s n) s (copyLen rs s n)) :
    Sure Pl (copy d s n) rm w fun o rm' w' => rm'.st = rm.st ∧ w'.held = w.held ∧
      (d + copyLen rs s n ≤ rd.ptr + rd.size → o = some () ∧
        ∀ q, w'.mem q = if d ≤ q ∧ q < d + copyLen rs s n then w.mem (s + (q - d)) else w.mem q) ∧
      (rd.ptr + rd.size < d + copyLen rs s n → o = none ∧ w'.mem = w.mem) := by
  have hX := histX_ok ha hu.2 hu.1 hh
  have hm := histX_mem ha hu hh
  obtain ⟨a1, f1, m1⟩ := find_at hm hrs hfs
  obtain ⟨a2, f2, m2⟩ := find_at m1 hrd hfd
  have c1 := hfs.1.1
  have c2 := hfs.1.2
  have c3 := hfd.1.1
  have c4 := hfd.1.2
  have e3 : (if n = 0 then rs.size - (s - rs.ptr) else n) = copyLen rs s n := by unfold copyLen; split <;> omega
  have us : Usable w.held s (copyLen rs s n) := (usable_reown (hX.named hu.1)).1 (hm.usable hrs c1 hsrc)
  apply sure_of
  show MP.wp Pl (copy d s n rm) w _
  unfold copy
  rw [run_find f1, run_find (rm := { rm with amap := a1 }) f2]
  dsimp only
  rw [e3]
  by_cases hgt : copyLen rs s n > rd.size - (d - rd.ptr)
  · rw [if_pos hgt]
    exact ⟨rfl, rfl, fun hle => by omega, fun _ => ⟨rfl, rfl⟩⟩
  · rw [if_neg hgt]
    have ud : Usable w.held d (copyLen rs s n) := (usable_reown (hX.named hu.1)).1 (hm.usable hrd c3 (by omega))
    exact ⟨⟨ud, us, hdis⟩, rfl, rfl, fun _ => ⟨rfl, fun q => rfl⟩, fun hlt => by omega⟩

/-- **C77**, `memset` on an address of a live allocation or of external memory. -/
theorem external_memset_partial (ha : Aligned Pl B) (hu : Foreign Pl u) (hh : HistX Pl c u t rm w) {r : Rec} {p n : Nat} (v : Int)
    (hr : r ∈ liveX c t) (hf : Findable B r p) :
    Sure Pl (memset p v n) rm w fun o rm' w' => rm'.st = rm.st ∧ w'.held = w.held ∧
      (p + n ≤ r.ptr + r.size → o = some () ∧
        ∀ q, w'.mem q = if p ≤ q ∧ (if n = 0 then q < r.ptr + r.size else q < p + n) then (v % 256).toNat else w.mem q) ∧
      (r.ptr + r.size < p + n → o = none ∧ w'.mem = w.mem) := by
  have hX := histX_ok ha hu.2 hu.1 hh
  have hm := histX_mem ha hu hh
  obtain ⟨a1, f1, m1⟩ := find_at hm hr hf
  have c1 := hf.1.1
  have c2 := hf.1.2
  apply sure_of
  show MP.wp Pl (memset p v n rm) w _
  unfold memset
  rw [run_find f1]
  dsimp only
  by_cases hn : n = 0
  · simp only [if_pos hn]
    rw [if_neg (by omega)]
    refine ⟨(usable_reown (hX.named hu.1)).1 (hm.usable hr c1 (by omega)), rfl, rfl, fun _ => ⟨rfl, fun q => ?_⟩, fun hlt => by omega⟩
    show filled _ _ _ _ q = _
    unfold filled
    by_cases hq : p ≤ q ∧ q < r.ptr + r.size
    · rw [if_pos hq, if_pos (by omega)]; rfl
    · rw [if_neg hq, if_neg (by omega)]
  · simp only [if_neg hn]
    by_cases hgt : n > r.size - (p - r.ptr)
    · rw [if_pos hgt]
      exact ⟨rfl, rfl, fun hle => by omega, fun _ => ⟨rfl, rfl⟩⟩
    · rw [if_neg hgt]
      exact ⟨(usable_reown (hX.named hu.1)).1 (hm.usable hr c1 (by omega)), rfl, rfl, fun _ => ⟨rfl, fun q => rfl⟩, fun hlt => by omega⟩

/-! ## Statistics and the leak report -/

/-- The event is not one that makes the statistics of `s` deviate. -/
def FaithfulX (c : Cfg) (s : Nat) : EvX → Prop
  | .call e => Faithful c s e
  | _ => True

theorem lsum_append (s : Nat) (L L' : List Rec) : lsum s (L ++ L') = lsum s L + lsum s L' := by
  unfold lsum
  rw [List.filter_append, List.map_append, List.sum_append]

theorem OkX.split {x : GhostX} (h : OkX Pl B c u rm w x) : (x.ext ++ x.g.live.filter fun r => decide (r ∉ x.ext)).Perm x.g.live := by
  obtain ⟨st, _, hO⟩ := h.ok
  have nd : x.g.live.Nodup := List.Pairwise.imp (fun hne he => hne (by rw [he])) (List.pairwise_map.1 hO.mem.liveNodup)
  have nx : x.ext.Nodup := List.Pairwise.imp (fun hne he => hne (by rw [he])) (List.pairwise_map.1 h.nd)
  refine (List.perm_ext_iff_of_nodup ?_ nd).2 fun r => ?_
  · refine List.nodup_append.2 ⟨nx, nd.sublist List.filter_sublist, ?_⟩
    rintro a ha b hb rfl
    exact of_decide_eq_true (List.mem_filter.1 hb).2 ha
  · rw [List.mem_append, List.mem_filter, decide_eq_true_eq]
    constructor
    · rintro (hr | hr)
      · exact (h.ext r hr).1
      · exact hr.1
    · intro hr
      by_cases hx : r ∈ x.ext
      · exact Or.inl hx
      · exact Or.inr ⟨hr, hx⟩

theorem exactX {s : Nat} (hf : ∀ e ∈ t, FaithfulX c s e) : (ghostX c t).g.acct.exact s = true := by
  induction t with
  | nil => rfl
  | cons e t ih =>
    have ih := ih fun x hx => hf x (List.mem_cons_of_mem _ hx)
    have he := hf e List.mem_cons_self
    cases e with
    | call e => exact exact_step ih he
    | reg r => exact ih
    | unreg p => exact ih

/-- **C77**, statistics: as long as the current size does not deviate for the reasons of C24,
it is the sum of the sizes of what was allocated (and of the blocks strategies on top of the
allocator hold); external memory does not count. -/
theorem external_statistics_partial (hu : Foreign Pl u) (hh : HistX Pl c u t rm w) (s : Nat) (hf : ∀ e ∈ t, FaithfulX c s e) :
    (rm.st s).cur = (((liveX c t).filter fun r => decide (r ∉ extX c t ∧ r.tag = s)).map (·.size)).sum + ((ghostX c t).g.acct.kids s).sum := by
  have hX := histX_ok (aligned_none Pl) hu.2 hu.1 hh
  obtain ⟨st, hst, hO⟩ := hX.ok
  have h1 := hO.stat.cur s
  have h2 := hO.bound s
  have h3 := (hO.stat.hwm s (exactX hf)).1
  have h4 := hst s
  have h5 := lsum_perm hX.split s
  rw [lsum_append] at h5
  have h6 : lsum s ((ghostX c t).g.live.filter fun r => decide (r ∉ (ghostX c t).ext)) =
      (((liveX c t).filter fun r => decide (r ∉ extX c t ∧ r.tag = s)).map (·.size)).sum := by
    unfold lsum
    rw [List.filter_filter]
    congr 2
    apply List.filter_congr
    intro r _
    show (decide _ && decide _) = decide _
    rw [Bool.and_comm, ← Bool.decide_and]
    rfl
  rw [← h6]
  have h7 : extOf (ghostX c t).ext s = (lsum s (ghostX c t).ext : Nat) := rfl
  rw [h7] at h4
  rw [h3] at h1
  dsimp only at h1
  generalize lsum s (ghostX c t).ext = A at h4 h5
  generalize lsum s ((ghostX c t).g.live.filter fun r => decide (r ∉ (ghostX c t).ext)) = F at h5 ⊢
  generalize lsum s (ghostX c t).g.live = L at h1 h2 h5
  generalize ((ghostX c t).g.acct.kids s).sum = K at h1 h2 ⊢
  omega

/-- **C77**: the leak report of an allocator lists its live allocations and the external memory
registered for it. -/
theorem external_leaks (hu : Foreign Pl u) (hh : HistX Pl c u t rm w) : ∃ fuel, ∀ more s,
    (recordsOf s rm (fuel + more)).Perm ((liveX c t).filter fun r => decide (r.tag = s)) ∧ (recordsOf s rm (fuel + more)).Nodup :=
  (histX_mem (aligned_none Pl) hu hh).leaks

/-! ## Handing external memory back through an allocator -/

theorem goes_bind {β γ : Type} {m : M β} {f : β → M γ} {b : β} {rm1 : RM} {w1 : World} (h1 : MP.Run Pl (m rm) w (some b, rm1) w1)
    (h2 : MP.Goes Pl (f b rm1) w1) : MP.Goes Pl ((m >>= f) rm) w := by
  have key : ∀ {α δ : Type} {p : MP α} {k : α → MP δ} {w w1 : World} {a : α}, MP.Run Pl p w a w1 → MP.Goes Pl (k a) w1 → MP.Goes Pl (p.bind k) w := by
    intro α δ p k w w1 a h1 h2
    induction h1 with
    | ret => exact h2
    | allocOk e1 e2 e3 _ ih => exact .allocOk e1 e2 e3 (ih h2)
    | allocFail e1 _ ih => exact .allocFail e1 (ih h2)
    | dealloc e1 e2 _ ih => exact .dealloc e1 e2 (ih h2)
    | reallocOk e1 e2 e3 e4 e5 _ ih => exact .reallocOk e1 e2 e3 e4 e5 (ih h2)
    | reallocFail e1 _ ih => exact .reallocFail e1 (ih h2)
    | fromZero e1 e2 _ ih => exact .fromZero e1 e2 (ih h2)
    | memcpy _ ih => exact .memcpy (ih h2)
    | memset _ ih => exact .memset (ih h2)
  exact key (k := fun x => match x.1 with | none => .ret (none, x.2) | some b => f b x.2) h1 h2

theorem goes_deallocate (hu : Foreign Pl u) (hh : HistX Pl c u t rm w) {r : Rec} (hr : r ∈ extX c t) : MP.Goes Pl (deallocate c r.tag r.ptr rm) w := by
  have ha := aligned_none Pl
  have hX := histX_ok ha hu.2 hu.1 hh
  have hm := histX_mem ha hu hh
  have hx := hX.ext r hr
  obtain ⟨a', f1, _⟩ := hm.dereg hx.1
  unfold deallocate
  rw [if_neg (hm.rec_lt hx.1).1, if_pos (hm.tag r hx.1).2]
  refine goes_bind (b := r) (rm1 := { amap := a', st := bump rm.st r.tag (·.sub r.size) }) (w1 := w) ?_ ?_
  · refine run_bind (b := r) (rm1 := { rm with amap := a' }) (w1 := w) ?_ ?_
    · unfold deregister
      rw [f1]
      exact .ret
    · rw [if_pos rfl]
      exact .ret
  · refine goes_bind (b := false) (rm1 := _) (w1 := w) (.fromZero (b := false) ?_ (fun _ => rfl) .ret) ?_
    · rintro ⟨b, hb, e0, e1, e2⟩
      by_cases he : b = ⟨u, r.ptr, r.size⟩
      · rw [he] at e0; exact absurd e0 hu.1
      · have hd := pairwise_mem hX.wok.disj (fun x y h => by unfold BDisj Disj at *; omega) hb hx.2.1 he
        have := hX.wok.size b hb
        unfold BDisj Disj at hd
        dsimp only at hd
        omega
    · exact .badFree (hX.notGiven hr _)

/-- **C77** fails: deallocating external memory, through its allocator or through the manager,
is accepted and hands memory to a strategy that never gave it out. -/
theorem external_deallocate_undefined (hu : Foreign Pl u) (hh : HistX Pl c u t rm w) {r : Rec} (hr : r ∈ extX c t) :
    MP.Goes Pl (deallocate c r.tag r.ptr rm) w ∧ MP.Goes Pl (deallocateAny c r.ptr rm) w := by
  have ha := aligned_none Pl
  have hX := histX_ok ha hu.2 hu.1 hh
  have hm := histX_mem ha hu hh
  have hx := hX.ext r hr
  obtain ⟨a1, f1, _⟩ := find_eq hm hx.1
  have hlt := hm.rec_lt hx.1
  have hf : MP.Run Pl (find r.ptr rm) w (some r, { rm with amap := a1 }) w := by unfold find; rw [f1]; exact .ret
  refine ⟨goes_deallocate hu hh hr, ?_⟩
  refine goes_bind (b := r.tag) (run_bind (b := r) hf .ret) ?_
  exact goes_deallocate (t := .call (.query r.ptr) :: t) hu (hh.call (.query (by omega) hf)) hr

/-- Allocating, copying the external memory and freeing it. -/
theorem goes_relocate (hu : Foreign Pl u) (hh : HistX Pl c u t rm w) {r : Rec} {s n sz q : Nat} {D : M Unit} (hr : r ∈ extX c t) (hs : s ≠ zero)
    (ht : c.tracked s = true) (hn : n ≠ 0) (hsz : (if sz = 0 then r.size else sz) ≤ n) (hf : Fresh q n (ranges w.held)) (hpl : Pl s q)
    (hD : ∀ t rm w, HistX Pl c u t rm w → r ∈ extX c t → MP.Goes Pl (D rm) w) :
    MP.Goes Pl ((do let q ← allocate c s n; copy q r.ptr sz; D; return q : M Nat) rm) w := by
  have ha := aligned_none Pl
  have hcap : cap n = n := by unfold cap; rw [if_neg hn]
  obtain ⟨rm1, h1⟩ := allocate_can (c := c) (rm := rm) (s := s) (n := n) (p := q) (by rw [hcap]; exact hf) (by rw [if_neg hn]; exact hpl)
  have hh1 := hh.call (.alloc hs h1)
  have hm1 := histX_mem ha hu hh1
  have hl : liveX c (.call (.alloc s n (some q)) :: t) = ⟨q, n, s⟩ :: liveX c t := by
    show ((ghostX c t).g.alloc c s n q).live = _
    unfold Ghost.alloc
    rw [if_pos ht]
    rfl
  rw [hl] at hm1
  have hrl : r ∈ liveX c t := ((histX_ok ha hu.2 hu.1 hh).ext r hr).1
  obtain ⟨a2, f2, m2⟩ := find_eq hm1 (List.mem_cons_of_mem _ hrl)
  obtain ⟨a3, f3, m3⟩ := find_eq m2 (r := ⟨q, n, s⟩) List.mem_cons_self
  have hlt := hm1.rec_lt (List.mem_cons_of_mem _ hrl)
  have hlt' := hm1.rec_lt (r := ⟨q, n, s⟩) List.mem_cons_self
  dsimp only at hlt'
  have h2 : ∃ w2, MP.Run Pl (copy q r.ptr sz rm1) ⟨blkOf ⟨q, n, s⟩ :: w.held, w.mem⟩ (some (), { rm1 with amap := a3 }) w2 := by
    refine ⟨⟨blkOf ⟨q, n, s⟩ :: w.held, copied w.mem q r.ptr (if sz = 0 then r.size else sz)⟩, ?_⟩
    unfold copy
    rw [run_find f2, run_find (rm := { rm1 with amap := a2 }) f3]
    dsimp only
    rw [Nat.sub_self, Nat.sub_self, Nat.sub_zero, Nat.sub_zero, if_neg (by omega)]
    exact .memcpy .ret
  obtain ⟨w2, h2⟩ := h2
  have hh2 := hh1.call (.copy (by omega) (by omega) h2)
  exact goes_bind h1 (goes_bind h2 (by
    have hg := hD _ _ _ hh2 hr
    have key : ∀ {α δ : Type} {p : MP α} {k : α → MP δ} {w : World}, MP.Goes Pl p w → MP.Goes Pl (p.bind k) w := by
      intro α δ p k w h
      induction h with
      | fail => exact .fail
      | allocOk e1 e2 e3 _ ih => exact .allocOk e1 e2 e3 ih
      | allocFail e1 _ ih => exact .allocFail e1 ih
      | badFree e => exact .badFree e
      | dealloc e1 e2 _ ih => exact .dealloc e1 e2 ih
      | badRealloc e => exact .badRealloc e
      | reallocOk e1 e2 e3 e4 e5 _ ih => exact .reallocOk e1 e2 e3 e4 e5 ih
      | reallocFail e1 _ ih => exact .reallocFail e1 ih
      | fromZero e1 e2 _ ih => exact .fromZero e1 e2 ih
      | badCopy e => exact .badCopy e
      | memcpy _ ih => exact .memcpy ih
      | badSet e => exact .badSet e
      | memset _ ih => exact .memset ih
    exact key hg))

/-- **C77** fails: moving external memory to another allocator, when that can satisfy the
request, hands memory to a strategy that never gave it out. -/
theorem external_move_undefined (hu : Foreign Pl u) (hh : HistX Pl c u t rm w) {r : Rec} {s q : Nat} (hr : r ∈ extX c t) (hs : s ≠ zero)
    (ht : c.tracked s = true) (hne : r.tag ≠ s) (hf : Fresh q r.size (ranges w.held)) (hpl : Pl s q) : MP.Goes Pl (move c r.ptr s rm) w := by
  have ha := aligned_none Pl
  have hx := (histX_ok ha hu.2 hu.1 hh).ext r hr
  have hm := histX_mem ha hu hh
  obtain ⟨a1, f1, _⟩ := find_eq hm hx.1
  have hlt := hm.rec_lt hx.1
  have hfr : MP.Run Pl (find r.ptr rm) w (some r, { rm with amap := a1 }) w := by unfold find; rw [f1]; exact .ret
  have hh1 := hh.call (.query (by omega) hfr)
  unfold move
  rw [run_find f1, if_neg hne, if_neg (by simp)]
  exact goes_relocate hu hh1 hr hs ht (by omega) (by rw [if_pos rfl]; omega) hf hpl fun t rm w h1 h2 => (external_deallocate_undefined hu h1 h2).2

/-- **C77** fails: so does reallocating it, unless the allocator cannot satisfy the request. -/
theorem external_reallocate_undefined (hu : Foreign Pl u) (hh : HistX Pl c u t rm w) {r : Rec} {d n q : Nat} (hr : r ∈ extX c t)
    (hc : n = 0 ∨ r.tag = c.host ∨ Fresh q n (ranges w.held) ∧ Pl r.tag q) : MP.Goes Pl (reallocate c d r.ptr n rm) w := by
  have ha := aligned_none Pl
  have hX := histX_ok ha hu.2 hu.1 hh
  have hx := hX.ext r hr
  have hm := histX_mem ha hu hh
  obtain ⟨a1, f1, m1⟩ := find_eq hm hx.1
  obtain ⟨a2, f2, m2⟩ := find_eq m1 hx.1
  have hlt := hm.rec_lt hx.1
  have htag := hm.tag r hx.1
  have hf1 : MP.Run Pl (find r.ptr rm) w (some r, { rm with amap := a1 }) w := by unfold find; rw [f1]; exact .ret
  have hf2 : MP.Run Pl (find r.ptr { rm with amap := a1 }) w (some r, { rm with amap := a2 }) w := by
    show MP.Run Pl (.ret ((a1.findRecord r.ptr).2, { rm with amap := (a1.findRecord r.ptr).1 })) _ _ _
    rw [f2]; exact .ret
  have hh1 := hh.call (.query (by omega) hf1)
  have hh2 := hh1.call (.query (by omega) hf2)
  by_cases hn : n = 0
  · unfold reallocate
    rw [if_neg hlt.1, run_find f1]
    unfold reallocImpl
    rw [if_neg hlt.1, run_find (rm := { rm with amap := a1 }) f2, if_neg (by simp), if_pos hn]
    have hg := goes_deallocate hu hh2 hr
    refine MP.Goes.rec (motive := fun p w _ => ∀ k : Option Unit × RM → MP (Option Nat × RM), MP.Goes Pl (p.bind k) w) ?_ ?_ ?_ ?_ ?_ ?_ ?_ ?_ ?_ ?_ ?_ ?_ ?_ hg _
    · intro w k; exact .fail
    · intro s n k w p m e1 e2 e3 _ ih f; exact .allocOk e1 e2 e3 (ih f)
    · intro s n k w m e1 _ ih f; exact .allocFail e1 (ih f)
    · intro s p n k w e f; exact .badFree e
    · intro s p n k w m e1 e2 _ ih f; exact .dealloc e1 e2 (ih f)
    · intro s p n k w e f; exact .badRealloc e
    · intro s p n k w q m e1 e2 e3 e4 e5 _ ih f; exact .reallocOk e1 e2 e3 e4 e5 (ih f)
    · intro s p n k w e1 _ ih f; exact .reallocFail e1 (ih f)
    · intro p k w b e1 e2 _ ih f; exact .fromZero e1 e2 (ih f)
    · intro d s n k w e f; exact .badCopy e
    · intro d s n k w _ ih f; exact .memcpy (ih f)
    · intro p v n k w e f; exact .badSet e
    · intro p v n k w _ ih f; exact .memset (ih f)
  · by_cases hh' : r.tag = c.host
    · obtain ⟨k, hk⟩ := reallocate_host (d := d) hm hx.1 hn hh' (by omega)
      rw [hk]
      exact .badRealloc (hX.notGiven hr _)
    · obtain ⟨h1, h2⟩ := (hc.resolve_left hn).resolve_left hh'
      unfold reallocate
      rw [if_neg hlt.1, run_find f1]
      unfold reallocImpl
      rw [if_neg hlt.1, run_find (rm := { rm with amap := a1 }) f2, if_neg (by simp), if_neg hn, if_neg (by simp), if_neg hh']
      refine goes_relocate hu hh2 hr htag.1 htag.2 hn ?_ h1 h2 fun t rm w h1 h2 => goes_deallocate hu h1 h2
      by_cases hgt : r.size > n
      · rw [if_pos hgt]; split <;> omega
      · rw [if_neg hgt]; split <;> omega

/-- **C77**: deallocating external memory through an allocator other than that of its record
throws; it stays registered and everything is as before. -/
theorem external_wrong_deallocate (hu : Foreign Pl u) (hh : HistX Pl c u t rm w) {r : Rec} {s : Nat} (hr : r ∈ extX c t) (ht : c.tracked s = true)
    (hne : r.tag ≠ s) :
    Sure Pl (deallocate c s r.ptr) rm w fun o rm' w' => o = none ∧ rm'.st = rm.st ∧ w' = w ∧ ∀ x ∈ liveX c t, Answers Pl rm' w' x.ptr (some x) := by
  have ha := aligned_none Pl
  have hX := histX_ok ha hu.2 hu.1 hh
  have hx := hX.ext r hr
  have hm := histX_mem ha hu hh
  obtain ⟨a', f1, m1⟩ := hm.dereg hx.1
  have h0 := (hm.rec_lt hx.1).1
  have key : ∀ Q : Option Rec → RM → World → Prop, Q none { rm with amap := a'.insert r.ptr r } w → wpM Pl (inspDereg r.ptr s) rm w Q := by
    intro Q hQ
    apply wpM_bind
    show MP.wp Pl (match rm.amap.remove r.ptr with
      | .ok a r => MP.ret (some r, { rm with amap := a })
      | .throws a => .ret (none, { rm with amap := a })
      | .ub => .fail) _ _
    rw [f1]
    show wpM Pl (if r.tag = s then _ else _) _ _ Q
    rw [if_neg hne]
    apply wpM_bind
    show MP.wp Pl (if r.ptr = 0 then _ else _) _ _
    rw [if_neg h0]
    exact hQ
  apply sure_of
  unfold deallocate
  rw [if_neg h0, if_pos ht]
  apply wpM_bind
  apply key
  refine ⟨rfl, rfl, rfl, fun x hx' => ?_⟩
  have m2 := (m1.reg (hm.tag r hx.1) (hm.al r hx.1)).permute (dropR_perm hm.liveNodup hx.1) (List.Perm.refl _)
  exact MemOk.answers_base (rm := { rm with amap := a'.insert r.ptr r }) m2 hx'
end

/-! ## Examples and counterexamples -/

structure StX where
  t : List EvX
  rm : RM
  w : World

/-- A call to make: an allocation, a deallocation, or one of the calls of this file. -/
inductive CmdX where
  | alloc (s n : Nat)
  | free (s p : Nat)
  | reg (r : Rec)
  | unreg (p : Nat)

instance (p n : Nat) (H : List Blk) : Decidable (Fresh p n (ranges H)) := inferInstance

def StX.do (pl : Nat → Nat → Bool) (c : Cfg) (u : Nat) (x : StX) (l : List (Option Nat)) : CmdX → Option StX
  | .alloc s n => ifThen (decide (s ≠ zero)) ((exec pl l (allocate c s n x.rm) x.w).map fun y => ⟨.call (.alloc s n y.1.1) :: x.t, y.1.2, y.2⟩)
  | .free s p => ifThen (decide (s ≠ zero) && decide (p < 2 ^ 64) && c.tracked s)
      ((exec pl l (deallocate c s p x.rm) x.w).map fun y => ⟨.call (.free s p y.1.1.isSome) :: x.t, y.1.2, y.2⟩)
  | .reg r => ifThen (decide (1 ≤ r.size) && decide (r.tag ≠ zero) && decide (r.tag ≠ u) && c.tracked r.tag && pl r.tag r.ptr &&
        decide (Fresh r.ptr r.size (ranges x.w.held)))
      ((exec pl l (registerExternal r.ptr r x.rm) x.w).map fun y => ⟨.reg r :: x.t, y.1.2, ⟨⟨u, r.ptr, r.size⟩ :: y.2.held, y.2.mem⟩⟩)
  | .unreg p => ifThen (decide (p < 2 ^ 64) && decide (∀ r ∈ (ghostX c x.t).g.live, r.ptr = p → r ∈ (ghostX c x.t).ext))
      ((exec pl l (deregisterExternal p x.rm) x.w).map fun y => ⟨.unreg p :: x.t, y.1.2, ⟨dropU u p y.2.held, y.2.mem⟩⟩)

def playX (pl : Nat → Nat → Bool) (c : Cfg) (u : Nat) : List (CmdX × List (Option Nat)) → StX → Option StX
  | [], x => some x
  | (k, l) :: ks, x => match x.do pl c u l k with
    | some y => playX pl c u ks y
    | none => none

theorem doX_hist {pl : Nat → Nat → Bool} {c : Cfg} {u : Nat} {x y : StX} {l : List (Option Nat)} {k : CmdX}
    (hx : HistX (fun s p => pl s p = true) c u x.t x.rm x.w) (h : x.do pl c u l k = some y) : HistX (fun s p => pl s p = true) c u y.t y.rm y.w := by
  cases k <;> obtain ⟨hg, h⟩ := ifThen_some h <;> obtain ⟨z, he, h⟩ := Option.map_eq_some_iff.1 h <;> obtain ⟨⟨o, rm'⟩, w'⟩ := z <;> subst h <;>
    simp only [Bool.and_eq_true, decide_eq_true_eq] at hg <;> have hr := exec_run _ he
  · exact hx.call (.alloc hg hr)
  · exact hx.call (.free hg.1.1 hg.1.2 (Or.inl hg.2) hr)
  · exact hx.reg hg.1.1.1.1.1 hg.1.1.1.1.2 hg.1.1.1.2 hg.1.1.2 hg.1.2 hg.2 hr
  · exact hx.unreg hg.1 hg.2 hr

theorem playX_hist {pl : Nat → Nat → Bool} {c : Cfg} {u : Nat} {ks : List (CmdX × List (Option Nat))} {y : StX} :
    ∀ {x : StX}, HistX (fun s p => pl s p = true) c u x.t x.rm x.w → playX pl c u ks x = some y →
      HistX (fun s p => pl s p = true) c u y.t y.rm y.w := by
  induction ks with
  | nil =>
    intro x hx h
    unfold playX at h
    injection h with h
    subst h
    exact hx
  | cons a ks ih =>
    obtain ⟨k, l⟩ := a
    intro x hx h
    unfold playX at h
    split at h
    · rename_i z hz
      exact ih (doX_hist hx hz) h
    · cases h

theorem toldX {α : Type} {f : StX → α} {pl : Nat → Nat → Bool} {c : Cfg} {u : Nat} {ks : List (CmdX × List (Option Nat))} {a : α}
    (h : (playX pl c u ks ⟨[], RM.new, ⟨[], fun _ => 0⟩⟩).map f = some a) :
    ∃ y : StX, HistX (fun s p => pl s p = true) c u y.t y.rm y.w ∧ f y = a := by
  obtain ⟨y, h1, h2⟩ := Option.map_eq_some_iff.1 h
  exact ⟨y, playX_hist (x := ⟨[], RM.new, ⟨[], fun _ => 0⟩⟩) (.new _) h1, h2⟩

/-- The memory of the user has the owner 7, which is no strategy. -/
def extPl : Nat → Nat → Bool := fun s p => decide (s ≠ 7) && zonePl s p

example : Foreign (fun s p => extPl s p = true) 7 := ⟨by decide, fun q h => by unfold extPl at h; simp at h⟩

/-- A history with external memory of two allocators and an allocation: one block was
registered, deregistered and registered again. -/
example : ∃ x : StX, HistX (fun s p => extPl s p = true) cfg 7 x.t x.rm x.w ∧
    (liveX cfg x.t, extX cfg x.t, x.w.held, (x.rm.st 3).cur, (x.rm.st 2).cur) =
      ([⟨32768, 100, 2⟩, ⟨16384, 40, 3⟩, ⟨8192, 24, 3⟩], [⟨32768, 100, 2⟩, ⟨16384, 40, 3⟩], [⟨7, 32768, 100⟩, ⟨7, 16384, 40⟩, ⟨3, 8192, 24⟩], 24, 0) :=
  toldX (ks := [(.reg ⟨16384, 16, 3⟩, []), (.alloc 3 24, [some 8192]), (.unreg 16384, []), (.unreg 16384, []), (.reg ⟨16384, 40, 3⟩, []), (.reg ⟨32768, 100, 2⟩, [])])
    (by decide +kernel)

/-- What the theorems on copies, on `move` and on reallocation ask, in the state reached
above: 24 bytes from the external memory to the allocation, and a free place. -/
example : Findable (fun b => ¬b = 16) ⟨16384, 40, 3⟩ 16392 ∧ copyLen ⟨16384, 40, 3⟩ 16392 24 = 24 ∧ Disj 8192 24 16392 24 ∧
    Fresh 65536 40 (ranges [⟨7, 32768, 100⟩, ⟨7, 16384, 40⟩, ⟨3, 8192, 24⟩]) ∧ extPl 2 65536 = true ∧ extPl 3 65536 = true := by
  refine ⟨⟨⟨by decide, by decide⟩, Or.inr (by decide)⟩, by decide, by decide, by decide, by decide, by decide⟩

example : ∀ e ∈ [EvX.reg ⟨16384, 16, 3⟩, .call (.alloc 3 24 (some 8192)), .unreg 16384], FaithfulX cfg 3 e := by
  simp [FaithfulX, Faithful]

/-- **C77** fails in part: registering memory inside of a live allocation is accepted, and the
addresses of the allocation behind it are unknown from then on. -/
theorem external_inside_counterexample : ∃ (x : StX) (rm' : RM), HistX (fun s p => extPl s p = true) cfg 7 x.t x.rm x.w ∧
    liveX cfg x.t = [⟨8192, 64, 3⟩] ∧ MP.Run (fun s p => extPl s p = true) (registerExternal 8208 ⟨8208, 16, 3⟩ x.rm) x.w (some (), rm') x.w ∧
    Contains ⟨8192, 64, 3⟩ 8232 ∧ Answers (fun s p => extPl s p = true) x.rm x.w 8232 (some ⟨8192, 64, 3⟩) ∧
    Answers (fun s p => extPl s p = true) rm' x.w 8232 none := by
  obtain ⟨x, h1, h2⟩ := toldX (f := fun x => (liveX cfg x.t, (x.rm.amap.findRecord 8232).2, ((x.rm.amap.insert 8208 ⟨8208, 16, 3⟩).findRecord 8232).2))
    (pl := extPl) (c := cfg) (u := 7) (ks := [(.alloc 3 64, [some 8192])]) (a := ([⟨8192, 64, 3⟩], some ⟨8192, 64, 3⟩, none)) (by decide +kernel)
  injection h2 with h2 h3
  injection h3 with h3 h4
  exact ⟨x, { x.rm with amap := x.rm.amap.insert 8208 ⟨8208, 16, 3⟩ }, h1, h2, .ret, ⟨by decide, by decide⟩, answers_of h3,
    answers_of (rm := { x.rm with amap := x.rm.amap.insert 8208 ⟨8208, 16, 3⟩ }) h4⟩

/-- **C77** fails in part: a record for another address than the one it is registered at is
accepted, and addresses that are in nothing are reported with it. -/
theorem external_address_counterexample : ∃ (x : StX) (rm' : RM), HistX (fun s p => extPl s p = true) cfg 7 x.t x.rm x.w ∧
    MP.Run (fun s p => extPl s p = true) (registerExternal 8192 ⟨16384, 16, 3⟩ x.rm) x.w (some (), rm') x.w ∧
    Answers (fun s p => extPl s p = true) rm' x.w 12288 (some ⟨16384, 16, 3⟩) := by
  obtain ⟨x, h1, h2⟩ := toldX (f := fun x => ((x.rm.amap.insert 8192 ⟨16384, 16, 3⟩).findRecord 12288).2)
    (pl := extPl) (c := cfg) (u := 7) (ks := []) (a := some ⟨16384, 16, 3⟩) (by decide +kernel)
  exact ⟨x, { x.rm with amap := x.rm.amap.insert 8192 ⟨16384, 16, 3⟩ }, h1, .ret,
    answers_of (rm := { x.rm with amap := x.rm.amap.insert 8192 ⟨16384, 16, 3⟩ }) h2⟩

end Umpire.Mgr
