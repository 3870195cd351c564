import Verif.Gpu.Model
import Verif.Names.RegistryProps
/-!
# C78: memory of a GPU resource is where its name says, and the current device stays

`Hist coh d0 t rt`: the calls and outcomes `t` (latest first) lead to `rt`, from a runtime without blocks whose current
device is `d0`.  `given t` is what was handed out and not freed since, by the outcomes alone; `userDev d0 t` is the
device the program has chosen.
-/
set_option autoImplicit false
set_option linter.unusedSimpArgs false
namespace Umpire.Gpu
open Umpire.Names (Grain)

/-- Where the memory of a resource is to be. -/
def Res.place (r : Res) : Place :=
  match r.kind with
  | .device => .device r.id
  | .um => .managed
  | .pinned => .pinned

/-- The granularity a HIP resource is to have; managed memory is fine grained unless asked otherwise, which is what the
runtime gives by itself. -/
def Res.wants (r : Res) : Grain :=
  match r.api, r.kind with
  | .cuda, _ => .unknown
  | .hip, .um => if r.grain = .coarse then .coarse else .unknown
  | .hip, _ => r.grain

/-- The runtime is able to tell and to change the current device. -/
def Ans.switches (a : Ans) : Prop := a.get = true ∧ a.set = true ∧ a.back = true

/-- What the runtime may answer: memory at an address it has not handed out; it releases only what it has handed out,
pinned memory only as such. -/
def Allowed (rt : Rt) : Op → Prop
  | .alloc _ _ a => a.switches ∧ ∀ p, a.mem = .ok p → ∀ b ∈ rt.blks, b.ptr ≠ p
  | .free r p a => a.switches ∧ (a.free = true → ∃ b ∈ rt.blks, b.ptr = p ∧ (b.place = .pinned ↔ r.kind = .pinned))
  | .use _ => True

inductive Hist (coh : Bool) (d0 : Int) : List (Op × Out) → Rt → Prop
  | new : Hist coh d0 [] ⟨d0, []⟩
  | step {t rt op} : Hist coh d0 t rt → Allowed rt op → Hist coh d0 ((op, (op.do coh rt).1) :: t) (op.do coh rt).2

/-- What was handed out and not freed since: resource, address, size. -/
def given : List (Op × Out) → List (Res × Nat × Nat)
  | [] => []
  | (.alloc r n _, .ptr p) :: t => (r, p, n) :: given t
  | (.free _ p _, .done) :: t => (given t).filter fun x => decide (x.2.1 ≠ p)
  | _ :: t => given t

/-- The device the program has chosen. -/
def userDev (d0 : Int) : List (Op × Out) → Int
  | [] => d0
  | (.use d, _) :: _ => d
  | _ :: t => userDev d0 t

/-- The block of an allocation. -/
def blkOf (x : Res × Nat × Nat) : GBlk := ⟨x.2.1, x.2.2, x.1.place, x.1.wants⟩

/-- The call is one that leaves memory behind: a failed advice. -/
def Leaks : Op × Out → Prop
  | (.alloc r _ a, .error) => r.api = .hip ∧ r.kind = .um ∧ ∃ p, a.mem = .ok p
  | _ => False

theorem regrain_other {p : Nat} {g : Grain} : ∀ {bs : List GBlk}, (∀ b ∈ bs, b.ptr ≠ p) → regrain p g bs = bs := by
  intro bs
  induction bs with
  | nil => intro _; rfl
  | cons b bs ih =>
    intro h
    unfold regrain
    rw [List.map_cons, if_neg (h b List.mem_cons_self)]
    have := ih fun x hx => h x (List.mem_cons_of_mem _ hx)
    unfold regrain at this
    rw [this]

theorem regrain_head {p n : Nat} {pl : Place} {g g' : Grain} {bs : List GBlk} (h : ∀ b ∈ bs, b.ptr ≠ p) :
    regrain p g' (⟨p, n, pl, g⟩ :: bs) = ⟨p, n, pl, g'⟩ :: bs := by
  have := regrain_other (g := g') h
  unfold regrain at this ⊢
  rw [List.map_cons, if_pos rfl, this]

/-- What the allocator below a resource can come to. -/
theorem rawAlloc_cases {coh : Bool} {r : Res} {n : Nat} {rt : Rt} {a : Ans} (hg : a.get = true) (hp : ∀ p, a.mem = .ok p → ∀ b ∈ rt.blks, b.ptr ≠ p)
    (hd : r.kind = .device → rt.cur = r.id) (hc : coh = true ∨ r.grain = .unknown) :
    (∃ p, a.mem = .ok p ∧ rawAlloc coh r n rt a = (.ptr p, ⟨rt.cur, blkOf (r, p, n) :: rt.blks⟩)) ∨
    (∃ o, o.threw = true ∧ rawAlloc coh r n rt a = (o, rt)) ∨
    (∃ p, a.mem = .ok p ∧ r.api = .hip ∧ r.kind = .um ∧ rawAlloc coh r n rt a = (.error, ⟨rt.cur, ⟨p, n, .managed, .unknown⟩ :: rt.blks⟩)) := by
  obtain ⟨api, kind, id, g⟩ := r
  dsimp only at hd hc
  have hreq : ∀ pl g, (∃ p, a.mem = .ok p ∧ request pl n g rt a = (.ptr p, ⟨rt.cur, ⟨p, n, pl, g⟩ :: rt.blks⟩)) ∨
      (∃ o, o.threw = true ∧ request pl n g rt a = (o, rt)) := by
    intro pl g
    unfold request
    cases hm : a.mem with
    | ok p => exact Or.inl ⟨p, rfl, rfl⟩
    | oom => exact Or.inr ⟨.oom, rfl, rfl⟩
    | error => exact Or.inr ⟨.error, rfl, rfl⟩
  have hor : g = .unknown ∨ coh = true := hc.symm
  cases api <;> cases kind <;> unfold rawAlloc <;> dsimp only
  · rw [hd rfl]
    rcases hreq (.device id) .unknown with ⟨p, hm, h⟩ | h
    · rw [hd rfl] at h
      exact Or.inl ⟨p, hm, h⟩
    · exact Or.inr (Or.inl h)
  · rcases hreq .managed .unknown with ⟨p, hm, h⟩ | h
    · exact Or.inl ⟨p, hm, h⟩
    · exact Or.inr (Or.inl h)
  · rcases hreq .pinned .unknown with ⟨p, hm, h⟩ | h
    · exact Or.inl ⟨p, hm, h⟩
    · exact Or.inr (Or.inl h)
  · rw [if_pos hor, hd rfl]
    rcases hreq (.device id) g with ⟨p, hm, h⟩ | h
    · rw [hd rfl] at h
      exact Or.inl ⟨p, hm, h⟩
    · exact Or.inr (Or.inl h)
  · rcases hreq .managed .unknown with ⟨p, hm, h⟩ | ⟨o, ho, h⟩
    · rw [h]
      dsimp only
      by_cases hco : coh = true ∧ g = .coarse
      · rw [if_pos hco, if_pos hg]
        by_cases hadv : a.adv = true
        · rw [if_pos hadv, regrain_head (hp p hm)]
          refine Or.inl ⟨p, hm, ?_⟩
          unfold blkOf Res.place Res.wants
          dsimp only
          rw [if_pos hco.2]
        · rw [if_neg hadv]
          exact Or.inr (Or.inr ⟨p, hm, rfl, rfl, rfl⟩)
      · rw [if_neg hco]
        refine Or.inl ⟨p, hm, ?_⟩
        unfold blkOf Res.place Res.wants
        dsimp only
        rw [if_neg]
        intro hg'
        rcases hc with h1 | h1
        · exact hco ⟨h1, hg'⟩
        · rw [h1] at hg'; cases hg'
    · rw [h]
      refine Or.inr (Or.inl ⟨o, ho, ?_⟩)
      cases o <;> first | rfl | cases ho
  · rw [if_pos hor]
    rcases hreq .pinned g with ⟨p, hm, h⟩ | h
    · exact Or.inl ⟨p, hm, h⟩
    · exact Or.inr (Or.inl h)

theorem switch_to {old id : Int} {rt : Rt} (h : rt.cur = old) : switch old id id true rt = ⟨id, rt.blks⟩ := by
  unfold switch
  by_cases he : old = id
  · rw [if_neg (fun hx => hx.1 he), ← he, ← h]
  · rw [if_pos ⟨he, rfl⟩]

theorem switch_back {old id : Int} {bs : List GBlk} : switch old id old true ⟨id, bs⟩ = ⟨old, bs⟩ := by
  unfold switch
  by_cases he : old = id
  · rw [if_neg (fun hx => hx.1 he), he]
  · rw [if_pos ⟨he, rfl⟩]

/-- What `allocate` of a resource can come to: memory of the kind, device and granularity it stands for, with the
current device as before; or an exception without memory, after which the current device may be that of the resource;
or the exception after a failed advice. -/
theorem allocate_cases {coh : Bool} {r : Res} {n : Nat} {rt : Rt} {a : Ans} (hs : a.switches) (hp : ∀ p, a.mem = .ok p → ∀ b ∈ rt.blks, b.ptr ≠ p)
    (hc : coh = true ∨ r.grain = .unknown) :
    (∃ p, a.mem = .ok p ∧ allocate coh r n rt a = (.ptr p, ⟨rt.cur, blkOf (r, p, n) :: rt.blks⟩)) ∨
    (∃ o, o.threw = true ∧ allocate coh r n rt a = (o, ⟨if r.kind = .device then r.id else rt.cur, rt.blks⟩)) ∨
    (∃ p, a.mem = .ok p ∧ r.api = .hip ∧ r.kind = .um ∧ allocate coh r n rt a = (.error, ⟨rt.cur, ⟨p, n, .managed, .unknown⟩ :: rt.blks⟩)) := by
  obtain ⟨hg, h1, h2⟩ := hs
  by_cases hk : r.kind = .device
  · unfold allocate
    rw [hk]
    dsimp only
    unfold onDevice
    rw [if_pos hg, h1, switch_to rfl, h2]
    dsimp only
    rcases rawAlloc_cases (n := n) (rt := ⟨r.id, rt.blks⟩) hg hp (fun _ => rfl) hc with ⟨p, hm, h⟩ | ⟨o, ho, h⟩ | ⟨p, _, _, hu, _⟩
    · rw [h]
      dsimp only
      rw [switch_back]
      exact Or.inl ⟨p, hm, rfl⟩
    · rw [h, if_pos rfl]
      refine Or.inr (Or.inl ⟨o, ho, ?_⟩)
      cases o <;> first | rfl | cases ho
    · rw [hk] at hu; cases hu
  · rw [if_neg hk]
    have : allocate coh r n rt a = rawAlloc coh r n rt a := by
      unfold allocate
      cases hk' : r.kind <;> first | exact absurd hk' hk | rfl
    rw [this]
    exact rawAlloc_cases hg hp (fun h => absurd h hk) hc

theorem deallocate_cases {r : Res} {p : Nat} {rt : Rt} {a : Ans} (hs : a.switches) :
    (a.free = true → deallocate r p rt a = (.done, ⟨rt.cur, rt.blks.filter fun b => decide (b.ptr ≠ p)⟩)) ∧
    (a.free = false → deallocate r p rt a = (.error, ⟨if r.kind = .device then r.id else rt.cur, rt.blks⟩)) := by
  obtain ⟨hg, h1, h2⟩ := hs
  unfold deallocate onDevice rawFree
  by_cases hk : r.kind = .device
  · rw [hk]
    dsimp only
    rw [if_pos hg, h1, switch_to rfl, h2]
    constructor
    · intro hf
      rw [if_pos hf]
      dsimp only
      rw [switch_back]
    · intro hf
      rw [hf]
      rfl
  · rw [if_neg hk]
    constructor <;> intro hf <;> cases hk' : r.kind <;> first | exact absurd hk' hk | (rw [hf]; rfl)

/-- A build without granularity has no resources with one (`DEVICE::FINE` and the like are not offered,
MemoryResourceRegistry.cpp:146-181). -/
def Offered (coh : Bool) (t : List (Op × Out)) : Prop :=
  ∀ x ∈ t, match x.1 with | .alloc r _ _ => coh = true ∨ r.grain = .unknown | _ => True

theorem Offered.tail {coh : Bool} {x : Op × Out} {t : List (Op × Out)} (h : Offered coh (x :: t)) : Offered coh t :=
  fun y hy => h y (List.mem_cons_of_mem _ hy)

section
variable {coh : Bool} {d0 : Int} {t : List (Op × Out)} {rt : Rt}

/-- **C78**: everything handed out and not freed since is a block of the runtime, of the size asked for, on the device,
of the kind and with the granularity its resource stands for; whatever requests failed in between. -/
theorem gpu_placed (hh : Hist coh d0 t rt) (ho : Offered coh t) : ∀ x ∈ given t, blkOf x ∈ rt.blks := by
  induction hh with
  | new => intro x hx; cases hx
  | @step t rt op h hal ih =>
    have ih := ih ho.tail
    cases op with
    | use d => exact ih
    | alloc r n a =>
      have hg : coh = true ∨ r.grain = .unknown := ho _ List.mem_cons_self
      show ∀ x ∈ given ((Op.alloc r n a, (allocate coh r n rt a).1) :: t), blkOf x ∈ (allocate coh r n rt a).2.blks
      rcases allocate_cases (n := n) hal.1 hal.2 hg with ⟨p, hm, e⟩ | ⟨o, ho', e⟩ | ⟨p, hm, _, _, e⟩
      · rw [e]
        intro x hx
        rcases List.mem_cons.1 hx with rfl | hx
        · exact List.mem_cons_self
        · exact List.mem_cons_of_mem _ (ih x hx)
      · rw [e]
        have : given ((Op.alloc r n a, o) :: t) = given t := by cases o <;> first | rfl | cases ho'
        intro x hx
        dsimp only at hx ⊢
        rw [this] at hx
        exact ih x hx
      · rw [e]
        exact fun x hx => List.mem_cons_of_mem _ (ih x hx)
    | free r p a =>
      show ∀ x ∈ given ((Op.free r p a, (deallocate r p rt a).1) :: t), blkOf x ∈ (deallocate r p rt a).2.blks
      cases hf : a.free with
      | true =>
        rw [(deallocate_cases hal.1).1 hf]
        intro x hx
        have hx := List.mem_filter.1 hx
        exact List.mem_filter.2 ⟨ih x hx.1, hx.2⟩
      | false =>
        rw [(deallocate_cases hal.1).2 hf]
        exact ih

/-- **C78**: the runtime holds nothing else, unless an advice failed. -/
theorem gpu_nothing_left_partial (hh : Hist coh d0 t rt) (ho : Offered coh t) (hl : ∀ x ∈ t, ¬Leaks x) : rt.blks = (given t).map blkOf := by
  induction hh with
  | new => rfl
  | @step t rt op h hal ih =>
    have ih := ih ho.tail fun x hx => hl x (List.mem_cons_of_mem _ hx)
    cases op with
    | use d => exact ih
    | alloc r n a =>
      have hg : coh = true ∨ r.grain = .unknown := ho _ List.mem_cons_self
      have hn := hl _ List.mem_cons_self
      show (allocate coh r n rt a).2.blks = (given ((Op.alloc r n a, (allocate coh r n rt a).1) :: t)).map blkOf
      rcases allocate_cases (n := n) hal.1 hal.2 hg with ⟨p, hm, e⟩ | ⟨o, ho', e⟩ | ⟨p, hm, h1, h2, e⟩
      · rw [e]
        show _ :: _ = _ :: (given t).map blkOf
        rw [ih]
      · rw [e]
        have : given ((Op.alloc r n a, o) :: t) = given t := by cases o <;> first | rfl | cases ho'
        dsimp only
        rw [this, ih]
      · exfalso
        have hn : ¬Leaks (Op.alloc r n a, (allocate coh r n rt a).1) := hn
        rw [e] at hn
        exact hn ⟨h1, h2, p, hm⟩
    | free r p a =>
      show (deallocate r p rt a).2.blks = (given ((Op.free r p a, (deallocate r p rt a).1) :: t)).map blkOf
      cases hf : a.free with
      | true =>
        rw [(deallocate_cases hal.1).1 hf]
        show rt.blks.filter _ = ((given t).filter _).map blkOf
        rw [ih, List.filter_map]
        rfl
      | false =>
        rw [(deallocate_cases hal.1).2 hf]
        exact ih

/-- **C78**: as long as no call throws, the current device is the one the program has chosen. -/
theorem gpu_current_partial (hh : Hist coh d0 t rt) (ho : Offered coh t) (hn : ∀ x ∈ t, x.2.threw = false) : rt.cur = userDev d0 t := by
  induction hh with
  | new => rfl
  | @step t rt op h hal ih =>
    have ih := ih ho.tail fun x hx => hn x (List.mem_cons_of_mem _ hx)
    have hx : (op.do coh rt).1.threw = false := hn _ List.mem_cons_self
    cases op with
    | use d => rfl
    | alloc r n a =>
      have hg : coh = true ∨ r.grain = .unknown := ho _ List.mem_cons_self
      show (allocate coh r n rt a).2.cur = userDev d0 t
      have hx : (allocate coh r n rt a).1.threw = false := hx
      rcases allocate_cases (n := n) hal.1 hal.2 hg with ⟨p, hm, e⟩ | ⟨o, ho', e⟩ | ⟨p, hm, h1, h2, e⟩
      · rw [e]; exact ih
      · rw [e] at hx; dsimp only at hx; rw [hx] at ho'; cases ho'
      · rw [e] at hx; cases hx
    | free r p a =>
      show (deallocate r p rt a).2.cur = userDev d0 t
      have hx : (deallocate r p rt a).1.threw = false := hx
      cases hf : a.free with
      | true => rw [(deallocate_cases hal.1).1 hf]; exact ih
      | false => rw [(deallocate_cases hal.1).2 hf] at hx; cases hx

/-- **C78**: a request succeeds whenever the runtime has memory (and, for coarse-grained managed memory, takes the
advice), and only then. -/
theorem gpu_allocate_iff {r : Res} {n p : Nat} {a : Ans} (hal : Allowed rt (.alloc r n a))
    (hc : coh = true ∨ r.grain = .unknown) :
    (allocate coh r n rt a).1 = .ptr p ↔ a.mem = .ok p ∧ (r.api = .hip → r.kind = .um → coh = true → r.grain = .coarse → a.adv = true) := by
  constructor
  · intro h
    rcases allocate_cases (n := n) hal.1 hal.2 hc with ⟨q, hm, e⟩ | ⟨o, ho', e⟩ | ⟨q, hm, h1, h2, e⟩
    · rw [e] at h
      injection h with h
      subst h
      refine ⟨hm, fun e1 e2 e3 e4 => ?_⟩
      cases hadv : a.adv with
      | true => rfl
      | false =>
        unfold allocate rawAlloc request at e
        rw [e1, e2, hm] at e
        dsimp only at e
        rw [if_pos ⟨e3, e4⟩, hal.1.1, hadv] at e
        injection e with e _
        cases e
    · rw [e] at h; dsimp only at h; rw [h] at ho'; cases ho'
    · rw [e] at h; cases h
  · rintro ⟨hm, hadv⟩
    rcases allocate_cases (n := n) hal.1 hal.2 hc with ⟨q, hm', e⟩ | ⟨o, ho', e⟩ | ⟨q, hm', h1, h2, e⟩
    · rw [hm] at hm'; injection hm' with hm'; rw [e, hm']
    · exfalso
      obtain ⟨api, kind, id, g⟩ := r
      have hor : g = .unknown ∨ coh = true := hc.symm
      dsimp only at hadv
      cases api <;> cases kind <;> unfold allocate onDevice rawAlloc request at e <;> dsimp only at e <;> rw [hm] at e <;>
        (try rw [if_pos hal.1.1] at e) <;> (try rw [if_pos hor] at e) <;> dsimp only at e <;>
        first
        | (injection e with e _; rw [← e] at ho'; cases ho')
        | skip
      by_cases hco : coh = true ∧ g = .coarse
      · rw [if_pos hco, if_pos (hadv rfl rfl hco.1 hco.2), if_pos hal.1.1] at e
        injection e with e _; rw [← e] at ho'; cases ho'
      · rw [if_neg hco] at e
        injection e with e _; rw [← e] at ho'; cases ho'
    · exfalso
      unfold allocate rawAlloc request at e
      rw [h1, h2, hm] at e
      dsimp only at e
      by_cases hco : coh = true ∧ r.grain = .coarse
      · rw [if_pos hco, if_pos hal.1.1, if_pos (hadv h1 h2 hco.1 hco.2)] at e
        injection e with e _; cases e
      · rw [if_neg hco] at e
        injection e with e _; cases e

/-- **C78** fails: after a request that throws, the current device is that of the resource; so it is after a release
that throws. -/
theorem gpu_drift {r : Res} {n p : Nat} {a : Ans} (hk : r.kind = .device) (hs : a.switches) :
    (a.mem = .oom ∨ a.mem = .error → (allocate coh r n rt a).1.threw = true ∧ (allocate coh r n rt a).2.cur = r.id) ∧
    (a.free = false → deallocate r p rt a = (.error, ⟨r.id, rt.blks⟩)) := by
  constructor
  · intro hm
    obtain ⟨hg, h1, h2⟩ := hs
    unfold allocate onDevice
    rw [hk]
    dsimp only
    rw [if_pos hg, h1, switch_to rfl]
    have hreq : ∀ pl g, ∃ o, o.threw = true ∧ request pl n g ⟨r.id, rt.blks⟩ a = (o, ⟨r.id, rt.blks⟩) := by
      intro pl g
      unfold request
      rcases hm with h | h <;> rw [h] <;> exact ⟨_, rfl, rfl⟩
    have : ∃ o : Out, o.threw = true ∧ rawAlloc coh r n ⟨r.id, rt.blks⟩ a = (o, ⟨r.id, rt.blks⟩) := by
      obtain ⟨api, kind, id, g⟩ := r
      dsimp only at hk
      subst hk
      cases api <;> unfold rawAlloc <;> dsimp only
      · exact hreq _ _
      · split
        · exact hreq _ _
        · exact ⟨.error, rfl, rfl⟩
    obtain ⟨o, ho, e⟩ := this
    rw [e]
    cases o <;> first | exact ⟨rfl, rfl⟩ | cases ho
  · intro hf
    have := (deallocate_cases (r := r) (p := p) (rt := rt) hs).2 hf
    rw [if_pos hk] at this
    exact this

/-- **C78** fails: when `*SetDevice` does, the memory is on the device that happened to be current, and nothing is
thrown. -/
theorem gpu_wrong_device {r : Res} {n p : Nat} {a : Ans} (hk : r.kind = .device) (hc : r.api = .cuda) (hg : a.get = true) (hs : a.set = false)
    (hm : a.mem = .ok p) : (allocate coh r n rt a).1 = .ptr p ∧ (allocate coh r n rt a).2.blks = ⟨p, n, .device rt.cur, .unknown⟩ :: rt.blks := by
  have h0 : ∀ x y : Int, switch x y y false rt = rt := by
    intro x y; unfold switch; rw [if_neg (fun h => by cases h.2)]
  have h1 : ∀ (x y z : Int) (b : Bool) (s : Rt), (switch x y z b s).blks = s.blks := by
    intro x y z b s; unfold switch; split <;> rfl
  unfold allocate onDevice rawAlloc request
  rw [hk, hc, hm]
  dsimp only
  rw [if_pos hg, hs, h0]
  exact ⟨rfl, h1 _ _ _ _ _⟩

/-- **C78** fails: when `*GetDevice` does, an indeterminate value is compared. -/
theorem gpu_no_device {r : Res} {n : Nat} {a : Ans} (hk : r.kind = .device) (hg : a.get = false) : (allocate coh r n rt a).1 = .ub := by
  unfold allocate onDevice
  rw [hk, hg]
  rfl
end

section
open Umpire.Names

/-- A build for CUDA or HIP, with `d` devices. -/
def OfGpu (b : Build) (d : Nat) : Prop := (∃ c, b.gpu = .cuda d c) ∨ ∃ g c, b.gpu = .hip d g c

/-- **C78**: the resource `DEVICE::i` is for device `i`, whatever device is current when it is made, `DEVICE` for the
device current then, `UM` for managed and `PINNED` for pinned memory. -/
theorem gpu_named (b : Build) (d : Nat) (cur : Int) (hb : OfGpu b d) :
    (∀ i, i < d → i ≤ INT_MAX → ∃ r, made b cur (devName i) = some r ∧ r.place = .device i) ∧
    (∃ r, made b cur DEVICE = some r ∧ r.place = .device cur) ∧
    (∃ r, made b cur UM = some r ∧ r.place = .managed) ∧ (∃ r, made b cur PINNED = some r ∧ r.place = .pinned) := by
  have none : ∀ c n, findSub COLONS n = none → matchId n = none → deviceId c cur n = some cur := by
    intro c n h1 h2
    unfold deviceId
    rw [h1, h2]
    split <;> rfl
  have key : ∀ n, n ∈ b.names → ∀ i, deviceId (b.reg cur).cuda cur n = some i →
      (b.meant n = some (.device b.main) → ∃ r, made b cur n = some r ∧ r.place = .device i) ∧
      (b.meant n = some (.um b.main) → ∃ r, made b cur n = some r ∧ r.place = .managed) ∧
      (b.meant n = some (.pinned b.main) → ∃ r, made b cur n = some r ∧ r.place = .pinned) := by
    intro n hn i hi
    have hs := (advertised_kind b n hn).1
    have hm : b.main = .cuda ∨ b.main = .hip := by
      rcases hb with ⟨c, h⟩ | ⟨g, c, h⟩ <;> simp [Build.main, h]
    refine ⟨fun h => ?_, fun h => ?_, fun h => ?_⟩ <;> unfold made <;> rw [hs, h, hi] <;> rcases hm with h | h <;> rw [h] <;> exact ⟨_, rfl, rfl⟩
  have hdev : DEVICE ∈ b.names ∧ UM ∈ b.names ∧ PINNED ∈ b.names := by
    rcases hb with ⟨c, h⟩ | ⟨g, c, h⟩ <;> simp [Build.names, Gpu.names, h]
  refine ⟨fun i hi hm => ?_, ?_, ?_, ?_⟩
  · refine (key (devName i) ?_ i (advertised_device_partial b cur i hm)).1 rfl
    rcases hb with ⟨c, h⟩ | ⟨g, c, h⟩
    · simp only [Build.names, Gpu.names, h, List.mem_append, List.mem_cons, List.mem_map]
      exact .inl (.inr (.inl (.inl (.inr ⟨i, List.mem_range.2 hi, rfl⟩))))
    · simp only [Build.names, Gpu.names, h, List.mem_append, List.mem_cons, List.mem_flatMap]
      exact .inl (.inr (.inl (.inl (.inl (.inr ⟨i, List.mem_range.2 hi, .inl rfl⟩)))))
  · exact (key DEVICE hdev.1 cur (none _ _ (by decide) (by decide))).1 rfl
  · exact (key UM hdev.2.1 cur (none _ _ (by decide) (by decide))).2.1 rfl
  · exact (key PINNED hdev.2.2 cur (none _ _ (by decide) (by decide))).2.2 rfl

example : OfGpu ⟨false, false, false, .cuda 4 true, none⟩ 4 ∧ (3 : Nat) < 4 ∧ 3 ≤ INT_MAX := ⟨.inl ⟨true, rfl⟩, by omega, by decide⟩

/-- **C78**: the granularity of a resource is the one after the last `::` of its name. -/
theorem gpu_grain (b : Build) (cur : Int) (n : Name) (hn : n ∈ b.names) (r : Res) (h : made b cur n = some r) : r.grain = meantGrain n := by
  rw [← advertised_grain b n hn]
  unfold made at h
  split at h <;> first | (injection h with h; rw [← h]) | cases h

example : made ⟨false, false, false, .hip 2 true false, none⟩ 1 (UM ++ COLONS ++ COARSE) = some ⟨.hip, .um, 1, .coarse⟩ ∧
    (UM ++ COLONS ++ COARSE) ∈ Build.names ⟨false, false, false, .hip 2 true false, none⟩ := by decide +kernel

/-- **C78** fails: `DEVICE::i::FINE` is memory of the device current when the resource is made, whatever `i` is. -/
theorem gpu_fine_counterexample (d : Nat) (k : Bool) (cur : Int) (i : Nat) (hi : i < d) :
    ∃ r, made ⟨false, false, false, .hip d true k, none⟩ cur (devName i ++ COLONS ++ FINE) = some r ∧ r.place = .device cur := by
  have h := fine_counterexample d k cur i hi (devName i ++ COLONS ++ FINE) (by simp [grains])
  have hs := (advertised_kind _ _ h.1).1
  have hm : Build.meant ⟨false, false, false, .hip d true k, none⟩ (devName i ++ COLONS ++ FINE) = some (.device .hip) := rfl
  unfold made
  rw [hs, hm, h.2]
  exact ⟨_, rfl, rfl⟩
end

/-! ## Examples and counterexamples -/

def dev (i : Int) : Res := ⟨.cuda, .device, i, .unknown⟩
def coarse : Res := ⟨.hip, .um, 0, .coarse⟩

/-- The runtime after some calls. -/
def play (coh : Bool) (d0 : Int) : List Op → List (Op × Out) × Rt
  | [] => ([], ⟨d0, []⟩)
  | op :: ops => let x := play coh d0 ops; ((op, (op.do coh x.2).1) :: x.1, (op.do coh x.2).2)

def allowedB (rt : Rt) : Op → Bool
  | .alloc _ _ a => a.get && a.set && a.back && (match a.mem with | .ok p => rt.blks.all fun b => decide (b.ptr ≠ p) | _ => true)
  | .free r p a => a.get && a.set && a.back && (!a.free || rt.blks.any fun b => decide (b.ptr = p) && (decide (b.place = .pinned) == decide (r.kind = .pinned)))
  | .use _ => true

theorem allowed_of {rt : Rt} {op : Op} (h : allowedB rt op = true) : Allowed rt op := by
  cases op with
  | use d => trivial
  | alloc r n a =>
    simp only [allowedB, Bool.and_eq_true] at h
    refine ⟨⟨h.1.1.1, h.1.1.2, h.1.2⟩, fun p hp b hb => ?_⟩
    have h2 := h.2
    rw [hp] at h2
    exact of_decide_eq_true (List.all_eq_true.1 h2 b hb)
  | free r p a =>
    simp only [allowedB, Bool.and_eq_true, Bool.or_eq_true] at h
    refine ⟨⟨h.1.1.1, h.1.1.2, h.1.2⟩, fun hf => ?_⟩
    rcases h.2 with h2 | h2
    · rw [hf] at h2; cases h2
    · obtain ⟨b, hb, h3⟩ := List.any_eq_true.1 h2
      simp only [Bool.and_eq_true, decide_eq_true_eq, beq_iff_eq] at h3
      exact ⟨b, hb, h3.1, by have := h3.2; rw [decide_eq_decide] at this; exact this⟩

def playable (coh : Bool) (d0 : Int) : List Op → Bool
  | [] => true
  | op :: ops => playable coh d0 ops && allowedB (play coh d0 ops).2 op

theorem play_hist {coh : Bool} {d0 : Int} {ops : List Op} (h : playable coh d0 ops = true) : Hist coh d0 (play coh d0 ops).1 (play coh d0 ops).2 := by
  induction ops with
  | nil => exact .new
  | cons op ops ih =>
    simp only [playable, Bool.and_eq_true] at h
    exact .step (ih h.1) (allowed_of h.2)

/-- A history with memory on two devices, pinned memory, a failed request and a release, in which the program changes
its device. -/
def calls : List Op :=
  [.alloc (dev 1) 64 { mem := .ok 8192 }, .use 2, .alloc (dev 2) 32 { mem := .ok 16384 }, .free (dev 1) 4096 {},
    .alloc ⟨.cuda, .pinned, 0, .unknown⟩ 16 { mem := .ok 512 }, .alloc (dev 1) 24 { mem := .ok 4096 }, .alloc (dev 3) 24 { mem := .oom }]

example : Hist false 0 (play false 0 calls).1 (play false 0 calls).2 ∧ Offered false (play false 0 calls).1 ∧ (∀ x ∈ (play false 0 calls).1, ¬Leaks x) ∧
    given (play false 0 calls).1 = [(dev 1, 8192, 64), (dev 2, 16384, 32), (⟨.cuda, .pinned, 0, .unknown⟩, 512, 16)] ∧ (play false 0 calls).2.cur = 2 := by
  refine ⟨play_hist (by decide), ?_, ?_, by decide, by decide⟩
  · intro x hx
    simp only [play, calls, List.mem_cons, List.not_mem_nil, or_false] at hx
    rcases hx with rfl | rfl | rfl | rfl | rfl | rfl | rfl <;> first | exact Or.inr rfl | trivial
  · intro x hx
    simp only [play, calls, List.mem_cons, List.not_mem_nil, or_false] at hx
    rcases hx with rfl | rfl | rfl | rfl | rfl | rfl | rfl <;> exact fun h => by first | exact h | cases h.1

/-- A history without exceptions, with a HIP build with granularity. -/
example : Hist true 1 (play true 1 [.alloc coarse 64 { mem := .ok 4096 }, .alloc ⟨.hip, .device, 3, .fine⟩ 8 { mem := .ok 64 }]).1
    (play true 1 [.alloc coarse 64 { mem := .ok 4096 }, .alloc ⟨.hip, .device, 3, .fine⟩ 8 { mem := .ok 64 }]).2 ∧
    (play true 1 [.alloc coarse 64 { mem := .ok 4096 }, .alloc ⟨.hip, .device, 3, .fine⟩ 8 { mem := .ok 64 }]).2 =
      ⟨1, [⟨4096, 64, .managed, .coarse⟩, ⟨64, 8, .device 3, .fine⟩]⟩ := ⟨play_hist (by decide), by decide⟩

/-- **C78** fails: the request for 24 bytes of device 1 fails and is repeated (as pools do after they released what they
hold); it succeeds, and the program, which had chosen device 0, is on device 1. -/
theorem gpu_retry_counterexample : ∃ t rt, Hist false 0 t rt ∧ Offered false t ∧ given t = [(dev 1, 4096, 24)] ∧ userDev 0 t = 0 ∧ rt.cur = 1 :=
  ⟨_, _, play_hist (ops := [.alloc (dev 1) 24 { mem := .ok 4096 }, .alloc (dev 1) 24 { mem := .oom }]) (by decide), by
    intro x hx
    simp only [play, List.mem_cons, List.not_mem_nil, or_false] at hx
    rcases hx with rfl | rfl <;> exact Or.inr rfl, by decide, by decide, by decide⟩

/-- **C78** fails: a coarse-grained managed allocation whose advice fails throws and leaves the memory behind. -/
theorem gpu_advice_counterexample : ∃ t rt, Hist true 0 t rt ∧ given t = [] ∧ t.map (·.2) = [.error] ∧ rt.blks = [⟨4096, 24, .managed, .unknown⟩] :=
  ⟨_, _, play_hist (ops := [.alloc coarse 24 { mem := .ok 4096, adv := false }]) (by decide), by decide, by decide, by decide⟩

end Umpire.Gpu
