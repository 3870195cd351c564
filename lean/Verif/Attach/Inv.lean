import Verif.Attach.Model
/-!
# What holds in every state of the processes
-/
set_option autoImplicit false
set_option linter.unusedSimpArgs false
namespace Umpire.Attach
open Umpire.Shm (M Rec Op)

/-- Running stores one after the other. -/
def runs : List (M Unit) → Mem → Option Mem
  | [], m => some m
  | f :: l, m =>
    match f m with
    | .ok (_, m') => runs l m'
    | .error _ => none

theorem runs_cons {f : M Unit} {l : List (M Unit)} {m m' : Mem} (h : runs (f :: l) m = some m') :
    ∃ m1, f m = .ok ((), m1) ∧ runs l m1 = some m' := by
  unfold runs at h
  cases hf : f m with
  | error e => rw [hf] at h; cases h
  | ok r => rw [hf] at h; obtain ⟨_, m1⟩ := r; exact ⟨m1, rfl, h⟩

theorem runs_create {lim size : Nat} {m m' : Mem} (h : runs (inits lim size) m = some m') :
    Shm.create lim size m = .ok ((), m') := by
  unfold inits at h
  obtain ⟨_, h1, h⟩ := runs_cons h
  obtain ⟨_, h2, h⟩ := runs_cons h
  obtain ⟨_, h3, h⟩ := runs_cons h
  obtain ⟨_, h4, h⟩ := runs_cons h
  obtain ⟨_, h5, h⟩ := runs_cons h
  obtain ⟨_, h6, h⟩ := runs_cons h
  obtain ⟨_, h7, h⟩ := runs_cons h
  obtain ⟨_, h8, h⟩ := runs_cons h
  cases h
  unfold Shm.create
  rw [Shm.bind_run h1, Shm.bind_run h2, Shm.bind_run h3, Shm.bind_run h4, Shm.bind_run h5, Shm.bind_run h6,
    Shm.bind_run h7, h8]

theorem runs_snoc {l : List (M Unit)} {f : M Unit} {m0 m m' : Mem} (h : runs l m0 = some m) (hf : f m = .ok ((), m')) :
    runs (l ++ [f]) m0 = some m' := by
  induction l generalizing m0 with
  | nil =>
    cases h
    show runs [f] m = _
    unfold runs; rw [hf]; rfl
  | cons g l ih =>
    obtain ⟨m1, hg, h⟩ := runs_cons h
    show runs (g :: (l ++ [f])) m0 = _
    unfold runs; rw [hg]; exact ih h

/-- What holds for a process, depending on where it is. -/
def At (s : Sys) (cfg : Cfg) (p : Nat) : PC → Prop
  | .trunc o => o < s.made ∧ (s.obj o).maker = p ∧ (s.obj o).size = 0 ∧ (s.obj o).flag = 0
  | .cmap o => o < s.made ∧ (s.obj o).maker = p ∧ (s.obj o).size = cfg.size p ∧ (s.obj o).flag = 0
  | .flag o len => o < s.made ∧ (s.obj o).maker = p ∧ (s.obj o).size = cfg.size p ∧ len = cfg.size p ∧ len ≠ 0 ∧ (s.obj o).flag = 0
  | .mutex o len => o < s.made ∧ (s.obj o).maker = p ∧ (s.obj o).size = cfg.size p ∧ len = cfg.size p ∧ len ≠ 0 ∧ (s.obj o).flag = 1
  | .stores o len k => o < s.made ∧ (s.obj o).maker = p ∧ (s.obj o).size = cfg.size p ∧ len = cfg.size p ∧ len ≠ 0 ∧ (s.obj o).flag = 1 ∧
      (s.obj o).mutex = true ∧ k ≤ 8 ∧ ∃ m0, runs ((inits (pages len) (cfg.size p)).take k) m0 = some (s.obj o).mem
  | .done o len => o < s.made ∧ (s.obj o).maker = p ∧ (s.obj o).size = cfg.size p ∧ len = cfg.size p ∧ len ≠ 0 ∧ (s.obj o).flag = 1 ∧
      (s.obj o).mutex = true ∧ ∃ m0, Shm.create (pages len) (cfg.size p) m0 = .ok ((), (s.obj o).mem)
  | .wait o => o < s.made ∧ path (cfg.name (s.obj o).maker) = path (cfg.name p)
  | .amap o => o < s.made ∧ path (cfg.name (s.obj o).maker) = path (cfg.name p) ∧ (s.obj o).size ≠ 0
  | .spin o len => o < s.made ∧ path (cfg.name (s.obj o).maker) = path (cfg.name p) ∧ (s.obj o).size = len ∧ len ≠ 0
  | .ready o len => o < s.made ∧ path (cfg.name (s.obj o).maker) = path (cfg.name p) ∧ (s.obj o).size = len ∧ len ≠ 0 ∧ (s.obj o).flag = 2
  | .ub => False
  | _ => True

/-- What holds for an object. -/
structure ObjOk (cfg : Cfg) (x : Obj) : Prop where
  size : x.size ≠ 0 → x.size = cfg.size x.maker
  new : x.flag ≠ 2 → x.hist = [] ∧ x.led = []
  use : x.flag = 2 → x.size ≠ 0 ∧ x.mutex = true ∧ Shm.Run (cfg.size x.maker) (pages x.size) x.hist x.mem x.led

structure Inv (cfg : Cfg) (s : Sys) : Prop where
  at_ : ∀ p, At s cfg p (s.pc p)
  objs : ∀ o, ObjOk cfg (s.obj o)
  dir : ∀ n o, s.dir n = some o → o < s.made ∧ path (cfg.name (s.obj o).maker) = n

/-- `At` looks at the objects only. -/
theorem At.same {s s' : Sys} {cfg : Cfg} {q : Nat} {c : PC} (h : At s cfg q c) (ho : s'.obj = s.obj) (hm : s'.made = s.made) :
    At s' cfg q c := by
  cases c <;> simp only [At, ho, hm] at h ⊢ <;> exact h

/-- The maker of an object works on it. -/
theorem At.put {s : Sys} {cfg : Cfg} {p q o : Nat} {c : PC} {x : Obj} (h : At s cfg q c) (hm : (s.obj o).maker = p) (hq : q ≠ p)
    (h1 : x.maker = (s.obj o).maker) (h2 : (s.obj o).size ≠ 0 → x.size = (s.obj o).size) (h3 : (s.obj o).flag = 2 → x.flag = 2) :
    At (s.put o x) cfg q c := by
  have key : ∀ o', (s.put o x).obj o' = if o' = o then x else s.obj o' := fun _ => rfl
  have hmade : (s.put o x).made = s.made := rfl
  cases c with
  | idle => trivial
  | create => trivial
  | open_ => trivial
  | unmap => trivial
  | unlink => trivial
  | close => trivial
  | gone => trivial
  | failed => trivial
  | ub => exact h
  | trunc o' =>
    simp only [At, key, hmade] at h ⊢
    by_cases e : o' = o
    · subst e; exact absurd (h.2.1.symm.trans hm) hq
    · simp only [if_neg e]; exact h
  | cmap o' =>
    simp only [At, key, hmade] at h ⊢
    by_cases e : o' = o
    · subst e; exact absurd (h.2.1.symm.trans hm) hq
    · simp only [if_neg e]; exact h
  | flag o' =>
    simp only [At, key, hmade] at h ⊢
    by_cases e : o' = o
    · subst e; exact absurd (h.2.1.symm.trans hm) hq
    · simp only [if_neg e]; exact h
  | mutex o' =>
    simp only [At, key, hmade] at h ⊢
    by_cases e : o' = o
    · subst e; exact absurd (h.2.1.symm.trans hm) hq
    · simp only [if_neg e]; exact h
  | stores o' =>
    simp only [At, key, hmade] at h ⊢
    by_cases e : o' = o
    · subst e; exact absurd (h.2.1.symm.trans hm) hq
    · simp only [if_neg e]; exact h
  | done o' =>
    simp only [At, key, hmade] at h ⊢
    by_cases e : o' = o
    · subst e; exact absurd (h.2.1.symm.trans hm) hq
    · simp only [if_neg e]; exact h
  | wait o' =>
    simp only [At, key, hmade] at h ⊢
    by_cases e : o' = o
    · subst e; simp only [if_true, h1]; exact h
    · simp only [if_neg e]; exact h
  | amap o' =>
    simp only [At, key, hmade] at h ⊢
    by_cases e : o' = o
    · subst e; simp only [if_true, h1]; exact ⟨h.1, h.2.1, by rw [h2 h.2.2]; exact h.2.2⟩
    · simp only [if_neg e]; exact h
  | spin o' =>
    simp only [At, key, hmade] at h ⊢
    by_cases e : o' = o
    · subst e; simp only [if_true, h1]; exact ⟨h.1, h.2.1, by rw [h2 (by rw [h.2.2.1]; exact h.2.2.2)]; exact h.2.2.1, h.2.2.2⟩
    · simp only [if_neg e]; exact h
  | ready o' =>
    simp only [At, key, hmade] at h ⊢
    by_cases e : o' = o
    · subst e; simp only [if_true, h1]
      exact ⟨h.1, h.2.1, by rw [h2 (by rw [h.2.2.1]; exact h.2.2.2.1)]; exact h.2.2.1, h.2.2.2.1, h3 h.2.2.2.2⟩
    · simp only [if_neg e]; exact h

/-- A process works with an initialised object. -/
theorem At.call {s : Sys} {cfg : Cfg} {q o : Nat} {c : PC} {x : Obj} (h : At s cfg q c) (hf : (s.obj o).flag = 2)
    (h1 : x.maker = (s.obj o).maker) (h2 : x.size = (s.obj o).size) (h3 : x.flag = 2) : At (s.put o x) cfg q c := by
  have key : ∀ o', (s.put o x).obj o' = if o' = o then x else s.obj o' := fun _ => rfl
  have hmade : (s.put o x).made = s.made := rfl
  cases c with
  | idle => trivial
  | create => trivial
  | open_ => trivial
  | unmap => trivial
  | unlink => trivial
  | close => trivial
  | gone => trivial
  | failed => trivial
  | ub => exact h
  | trunc o' =>
    simp only [At, key, hmade] at h ⊢
    by_cases e : o' = o
    · subst e; exact absurd (h.2.2.2.symm.trans hf) (by decide)
    · simp only [if_neg e]; exact h
  | cmap o' =>
    simp only [At, key, hmade] at h ⊢
    by_cases e : o' = o
    · subst e; exact absurd (h.2.2.2.symm.trans hf) (by decide)
    · simp only [if_neg e]; exact h
  | flag o' =>
    simp only [At, key, hmade] at h ⊢
    by_cases e : o' = o
    · subst e; exact absurd (h.2.2.2.2.2.symm.trans hf) (by decide)
    · simp only [if_neg e]; exact h
  | mutex o' =>
    simp only [At, key, hmade] at h ⊢
    by_cases e : o' = o
    · subst e; exact absurd (h.2.2.2.2.2.symm.trans hf) (by decide)
    · simp only [if_neg e]; exact h
  | stores o' =>
    simp only [At, key, hmade] at h ⊢
    by_cases e : o' = o
    · subst e; exact absurd (h.2.2.2.2.2.1.symm.trans hf) (by decide)
    · simp only [if_neg e]; exact h
  | done o' =>
    simp only [At, key, hmade] at h ⊢
    by_cases e : o' = o
    · subst e; exact absurd (h.2.2.2.2.2.1.symm.trans hf) (by decide)
    · simp only [if_neg e]; exact h
  | wait o' =>
    simp only [At, key, hmade] at h ⊢
    by_cases e : o' = o
    · subst e; simp only [if_true, h1]; exact h
    · simp only [if_neg e]; exact h
  | amap o' =>
    simp only [At, key, hmade] at h ⊢
    by_cases e : o' = o
    · subst e; simp only [if_true, h1, h2]; exact h
    · simp only [if_neg e]; exact h
  | spin o' =>
    simp only [At, key, hmade] at h ⊢
    by_cases e : o' = o
    · subst e; simp only [if_true, h1, h2]; exact h
    · simp only [if_neg e]; exact h
  | ready o' =>
    simp only [At, key, hmade] at h ⊢
    by_cases e : o' = o
    · subst e; simp only [if_true, h1, h2, h3]; exact ⟨h.1, h.2.1, h.2.2.1, h.2.2.2.1, trivial⟩
    · simp only [if_neg e]; exact h

/-- A new object is none of those in use. -/
theorem At.new {s s' : Sys} {cfg : Cfg} {q : Nat} {c : PC} (h : At s cfg q c) (hm : s.made ≤ s'.made)
    (ho : ∀ o, o < s.made → s'.obj o = s.obj o) : At s' cfg q c := by
  cases c with
  | idle => trivial
  | create => trivial
  | open_ => trivial
  | unmap => trivial
  | unlink => trivial
  | close => trivial
  | gone => trivial
  | failed => trivial
  | ub => exact h
  | trunc o' => have hl := h.1; simp only [At, ho o' hl] at h ⊢; exact ⟨by omega, h.2⟩
  | cmap o' => have hl := h.1; simp only [At, ho o' hl] at h ⊢; exact ⟨by omega, h.2⟩
  | flag o' => have hl := h.1; simp only [At, ho o' hl] at h ⊢; exact ⟨by omega, h.2⟩
  | mutex o' => have hl := h.1; simp only [At, ho o' hl] at h ⊢; exact ⟨by omega, h.2⟩
  | stores o' => have hl := h.1; simp only [At, ho o' hl] at h ⊢; exact ⟨by omega, h.2⟩
  | done o' => have hl := h.1; simp only [At, ho o' hl] at h ⊢; exact ⟨by omega, h.2⟩
  | wait o' => have hl := h.1; simp only [At, ho o' hl] at h ⊢; exact ⟨by omega, h.2⟩
  | amap o' => have hl := h.1; simp only [At, ho o' hl] at h ⊢; exact ⟨by omega, h.2⟩
  | spin o' => have hl := h.1; simp only [At, ho o' hl] at h ⊢; exact ⟨by omega, h.2⟩
  | ready o' => have hl := h.1; simp only [At, ho o' hl] at h ⊢; exact ⟨by omega, h.2⟩

/-- A process goes on without touching anything. -/
theorem Inv.goto {cfg : Cfg} {s : Sys} (h : Inv cfg s) {p : Nat} {c : PC} (hc : At s cfg p c) : Inv cfg (s.goto p c) := by
  refine ⟨fun q => ?_, h.objs, h.dir⟩
  show At _ cfg q (if q = p then c else s.pc q)
  split
  · next e => subst e; exact hc.same rfl rfl
  · exact (h.at_ q).same rfl rfl

/-- The maker of an object works on it and goes on. -/
theorem Inv.work {cfg : Cfg} {s : Sys} (h : Inv cfg s) {p o : Nat} {c : PC} {x : Obj} (hm : (s.obj o).maker = p)
    (h1 : x.maker = (s.obj o).maker) (h2 : (s.obj o).size ≠ 0 → x.size = (s.obj o).size) (h3 : (s.obj o).flag = 2 → x.flag = 2)
    (hx : ObjOk cfg x) (hc : At (s.put o x) cfg p c) : Inv cfg ((s.put o x).goto p c) := by
  have hpo : ∀ o', ((s.put o x).goto p c).obj o' = if o' = o then x else s.obj o' := fun _ => rfl
  refine ⟨fun q => ?_, fun o' => ?_, fun n o' hd => ?_⟩
  · show At _ cfg q (if q = p then c else s.pc q)
    split
    · next e => subst e; exact hc.same rfl rfl
    · next e => exact ((h.at_ q).put hm e h1 h2 h3).same rfl rfl
  · rw [hpo]; split
    · exact hx
    · exact h.objs o'
  · have := h.dir n o' hd
    refine ⟨this.1, ?_⟩
    rw [hpo]; split
    · next e => subst e; rw [h1]; exact this.2
    · exact this.2

theorem pages_ge (n : Nat) (h : n ≠ 0) : 4096 ≤ pages n ∧ n ≤ pages n := by unfold pages; omega

/-- No store of the constructor leaves the mapping. -/
theorem inits_ok {lim size : Nat} (h : 4096 ≤ lim) {k : Nat} {f : M Unit} (hf : (inits lim size)[k]? = some f) (m : Mem) :
    ∃ m', f m = .ok ((), m') := by
  have hm : f ∈ inits lim size := List.mem_of_getElem? hf
  have hst : ∀ a v, a + 8 ≤ 4096 → ∃ m', Shm.st lim a v m = .ok ((), m') := fun a v ha =>
    ⟨_, Shm.st_run (by omega)⟩
  have hset : ∀ b v, 80 + b + 8 ≤ 4096 → ∃ m', Shm.set lim 80 b v m = .ok ((), m') := fun b v hb =>
    ⟨_, Shm.set_run (by omega) (by omega)⟩
  simp only [inits, List.mem_cons, List.not_mem_nil, or_false] at hm
  rcases hm with rfl | rfl | rfl | rfl | rfl | rfl | rfl | rfl
  · exact hst _ _ (by decide)
  · exact hst _ _ (by decide)
  · exact hst _ _ (by decide)
  · exact hst _ _ (by decide)
  · exact hset _ _ (by decide)
  · exact hset _ _ (by decide)
  · exact hset _ _ (by decide)
  · exact hset _ _ (by decide)

theorem Inv.move {cfg : Cfg} {s : Sys} (h : Inv cfg s) (p : Nat) (ok : Bool) : Inv cfg (move cfg p ok s) := by
  have hp := h.at_ p
  unfold Attach.move
  split
  next e => exact h.goto trivial
  next e =>
    split
    · exact h.goto trivial
    · split
      · exact h.goto trivial
      · next hn =>
        refine ⟨fun q => ?_, fun o => ?_, fun n o hd => ?_⟩
        · show At _ cfg q (if q = p then _ else s.pc q)
          split
          · next e => subst e; exact ⟨Nat.lt_succ_self _, by simp, by simp, by simp⟩
          · exact (h.at_ q).new (Nat.le_succ _) fun o ho => if_neg (by omega)
        · show ObjOk cfg (if o = s.made then _ else s.obj o)
          split
          · exact ⟨fun hc => absurd rfl hc, fun _ => ⟨rfl, rfl⟩, fun hc => absurd hc (show (0 : Nat) ≠ 2 by decide)⟩
          · exact h.objs o
        · have hd' : (if n = path (cfg.name p) then some s.made else s.dir n) = some o := hd
          show o < s.made + 1 ∧ path (cfg.name (if o = s.made then _ else s.obj o : Obj).maker) = n
          split at hd'
          · next en => cases hd'; subst en; rw [if_pos rfl]; exact ⟨Nat.lt_succ_self _, rfl⟩
          · have := h.dir n o hd'
            rw [if_neg (by omega)]; exact ⟨by omega, this.2⟩
  next e =>
    split
    · exact h.goto trivial
    · split
      next o ho => exact h.goto (h.dir _ _ ho)
      · exact h.goto trivial
  next o e =>
    rw [e] at hp
    split
    · exact h.goto trivial
    · have hO := h.objs o
      refine h.work (o := o) hp.2.1 rfl (fun hc => absurd hp.2.2.1 hc) id ⟨fun _ => ?_, hO.new, fun hf => ?_⟩ ?_
      · show cfg.size p = cfg.size (s.obj o).maker
        rw [hp.2.1]
      · exact absurd (hp.2.2.2.symm.trans hf) (by decide)
      · refine ⟨hp.1, ?_, ?_, ?_⟩ <;> simp only [Sys.put, if_true] <;> first | exact hp.2.1 | exact hp.2.2.2
  next o e =>
    rw [e] at hp
    split
    · exact h.goto trivial
    · next hz =>
      have hz' : (s.obj o).size ≠ 0 := fun hc => hz (Or.inr hc)
      exact h.goto ⟨hp.1, hp.2.1, hp.2.2.1, hp.2.2.1, hz', hp.2.2.2⟩
  next o len e =>
    rw [e] at hp
    have hO := h.objs o
    obtain ⟨a1, a2, a3, a4, a5, a6⟩ := hp
    refine h.work (o := o) a2 rfl (fun _ => rfl) (fun hf => absurd (a6.symm.trans hf) (by decide))
      ⟨hO.size, fun _ => hO.new (by rw [a6]; decide), fun hf => absurd hf (show (1 : Nat) ≠ 2 by decide)⟩ ?_
    refine ⟨a1, ?_, ?_, a4, a5, ?_⟩ <;> simp only [Sys.put, if_true] <;> first | exact a2 | exact a3
  next o len e =>
    rw [e] at hp
    split
    · exact h.goto trivial
    · have hO := h.objs o
      obtain ⟨a1, a2, a3, a4, a5, a6⟩ := hp
      refine h.work (o := o) a2 rfl (fun _ => rfl) id ⟨hO.size, hO.new, fun hf => absurd (a6.symm.trans hf) (by decide)⟩ ?_
      refine ⟨a1, ?_, ?_, a4, a5, ?_, ?_, by omega, ⟨(s.obj o).mem, ?_⟩⟩ <;> simp only [Sys.put, if_true] <;>
        first | exact a2 | exact a3 | exact a6 | rfl
  next o len k e =>
    rw [e] at hp
    have hO := h.objs o
    obtain ⟨a1, a2, a3, a4, a5, a6, a7, a8, m0, a9⟩ := hp
    split
    next hn =>
      have hk : 8 ≤ k := by
        have := List.getElem?_eq_none_iff.mp hn
        simpa [inits] using this
      have hk8 : k = 8 := by omega
      subst hk8
      exact h.goto ⟨a1, a2, a3, a4, a5, a6, a7, m0, runs_create a9⟩
    next f hf =>
      obtain ⟨m', hm'⟩ := inits_ok (pages_ge len a5).1 hf (s.obj o).mem
      rw [hm']
      dsimp only
      refine h.work (o := o) a2 rfl (fun _ => rfl) id ⟨hO.size, hO.new, fun hf => absurd (a6.symm.trans hf) (by decide)⟩ ?_
      have hk : k < 8 := by
        have := (List.getElem?_eq_some_iff.mp hf).1
        simpa [inits] using this
      refine ⟨a1, ?_, ?_, a4, a5, ?_, ?_, by omega, ⟨m0, ?_⟩⟩ <;> simp only [Sys.put, if_true] <;>
        first
        | exact a2 | exact a3 | exact a6 | exact a7
        | (rw [List.take_add_one, hf]; exact runs_snoc a9 hm')
  next o len e =>
    rw [e] at hp
    have hO := h.objs o
    obtain ⟨a1, a2, a3, a4, a5, a6, a7, m0, a8⟩ := hp
    have hnew := hO.new (by rw [a6]; decide)
    refine h.work (o := o) a2 rfl (fun _ => rfl) (fun _ => rfl)
      ⟨hO.size, fun hf => absurd rfl hf, fun _ => ⟨?_, a7, ?_⟩⟩ ?_
    · show (s.obj o).size ≠ 0
      rw [a3, ← a4]; exact a5
    · show Shm.Run (cfg.size (s.obj o).maker) (pages (s.obj o).size) (s.obj o).hist (s.obj o).mem (s.obj o).led
      rw [hnew.1, hnew.2, a2, a3, ← a4]
      rw [← a4] at a8
      exact .init a8
    · refine ⟨a1, ?_, ?_, a5, ?_⟩ <;> simp only [Sys.put, if_true]
      · rw [a2]
      · rw [a3, a4]
  next o e =>
    rw [e] at hp
    split
    · exact h.goto trivial
    · split
      · exact h
      · next hz => exact h.goto ⟨hp.1, hp.2, hz⟩
  next o e =>
    rw [e] at hp
    split
    · exact h.goto trivial
    · exact h.goto ⟨hp.1, hp.2.1, rfl, hp.2.2⟩
  next o len e =>
    rw [e] at hp
    split
    · exact h
    · next hf => exact h.goto ⟨hp.1, hp.2.1, hp.2.2.1, hp.2.2.2, Decidable.not_not.mp hf⟩
  next o e => exact h.goto trivial
  next o e =>
    have hg := h.goto (p := p) (c := .close o) trivial
    refine ⟨fun q => (hg.at_ q).same rfl rfl, hg.objs, fun n o' hd => ?_⟩
    have hd' : (if n = path (cfg.name p) then none else s.dir n) = some o' := hd
    split at hd'
    · cases hd'
    · exact hg.dir n o' hd'
  next o e => exact h.goto trivial
  all_goals exact h

theorem Inv.trans {cfg : Cfg} {s s' : Sys} (h : Inv cfg s) (t : Trans cfg s s') : Inv cfg s' := by
  cases t with
  | move p ok => exact h.move p ok
  | destroy p o len he hr => exact h.goto trivial
  | call p o len _ op m L hr hm hs =>
    have hp := h.at_ p
    rw [hr] at hp
    obtain ⟨a1, a2, a3, a4, a5⟩ := hp
    have hO := h.objs o
    have hpo : ∀ (x : Obj) (o' : Nat), (s.put o x).obj o' = if o' = o then x else s.obj o' := fun _ _ => rfl
    refine ⟨fun q => (h.at_ q).call a5 rfl rfl a5, fun o' => ?_, fun n o' hd => ?_⟩
    · rw [hpo]; split
      · refine ⟨hO.size, fun hf => absurd a5 hf, fun _ => ⟨(hO.use a5).1, (hO.use a5).2.1, ?_⟩⟩
        have hrun := (hO.use a5).2.2
        rw [← a3] at hs
        exact .step hrun hs
      · exact h.objs o'
    · have := h.dir n o' hd
      refine ⟨this.1, ?_⟩
      rw [hpo]; split
      · next e => subst e; exact this.2
      · exact this.2
  | bad p o len _ hr hm =>
    have hp := h.at_ p
    rw [hr] at hp
    have := ((h.objs o).use hp.2.2.2.2).2.1
    rw [hm] at this; cases this

theorem Reach.inv {cfg : Cfg} {s : Sys} (h : Reach cfg s) : Inv cfg s := by
  induction h with
  | init =>
    exact ⟨fun _ => trivial, fun _ => ⟨fun hc => absurd rfl hc, fun _ => ⟨rfl, rfl⟩, fun hc => absurd hc (show (0 : Nat) ≠ 2 by decide)⟩,
      fun _ _ hd => by cases hd⟩
  | step _ t ih => exact ih.trans t

end Umpire.Attach
