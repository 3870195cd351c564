import Verif.QuickPool.View
/-!
# Model of `FileMemoryResource` (src/umpire/resource/FileMemoryResource.cpp)

The build without umap.  `m_size_map` is a map from pointers to records, as proved
for `MemoryMap` in `Verif/Judy`; `insert` does nothing for a key that is present.

The operating system is part of the state: the files by name with their length,
the mappings this resource has made, the number of open descriptors.  Each call
takes the answers of the operating system as an argument, so that the theorems hold
whatever it answers.  Not modelled: the contents of the files.
-/
set_option autoImplicit false
set_option linter.unusedSimpArgs false
namespace Umpire.FileRes
open Umpire.Prog

abbrev Name := List Char

structure State where
  /-- `s_file_counter` (FileMemoryResource.cpp:31) -/
  counter : Nat
  /-- `m_size_map`: pointer, file name and length -/
  map : List (Nat × Name × Nat)
  /-- the file system: names and lengths -/
  files : List (Name × Nat)
  /-- address, length and file of each mapping -/
  maps : List (Nat × Nat × Name)
  /-- open file descriptors -/
  fds : Nat
deriving DecidableEq, Repr

/-- Lines 54-63: `<dir>umpire_mem_<pid>_<counter>`. -/
def mkName (dir : Name) (pid c : Nat) : Name :=
  dir ++ "umpire_mem_".toList ++ Nat.toDigits 10 pid ++ ['_'] ++ Nat.toDigits 10 c

/-- Lines 72-73. -/
def rounded (page bytes : Nat) : Nat := w64 (w64 (bytes + (page - 1)) / page * page)

/-- What the operating system answers during `allocate`; `rm` is whether the
`remove` on the error paths succeeds. -/
structure Ans where
  opens : Bool
  truncates : Bool
  maps : Option Nat
  rm : Bool := true

inductive Res (α : Type) where
  | ok (r : α)
  /-- a `runtime_error` -/
  | throws
  | ub
deriving DecidableEq, Repr

/-- `remove(name)` when it succeeds. -/
def unlink (name : Name) (files : List (Name × Nat)) : List (Name × Nat) := files.filter fun f => f.1 ≠ name

/-- `ftruncate64` on the open file of that name. -/
def setLength (name : Name) (n : Nat) (files : List (Name × Nat)) : List (Name × Nat) :=
  files.map fun f => if f.1 = name then (name, n) else f

/-- `open(…, O_CREAT)`: an existing file is opened as it is. -/
def openFile (name : Name) (files : List (Name × Nat)) : List (Name × Nat) :=
  if files.any (fun f => f.1 = name) then files else (name, 0) :: files

/-- `m_size_map.insert`: nothing happens if the key is present (MemoryMap.inl:37-67). -/
def insert (p : Nat) (r : Name × Nat) (m : List (Nat × Name × Nat)) : List (Nat × Name × Nat) :=
  if m.any (fun e => e.1 = p) then m else (p, r) :: m

/-- The part of `allocate` from the truncation on (lines 75-105). -/
def finish (s : State) (name : Name) (n : Nat) (a : Ans) : Res Nat × State :=
  if a.truncates = false then
    (.throws, { s with files := if a.rm then unlink name s.files else s.files })                 -- 77-81
  else
    let s := { s with files := setLength name n s.files }
    match a.maps with
    | none => (.throws, { s with files := if a.rm then unlink name s.files else s.files })        -- 88-93
    | some p =>
      (.ok p, { s with maps := (p, n, name) :: s.maps, map := insert p (name, n) s.map, fds := s.fds - 1 })

/-- `FileMemoryResource::allocate` (lines 51-106).  The counter is an `int`. -/
def allocate (page : Nat) (dir : Name) (pid : Nat) (s : State) (bytes : Nat) (a : Ans) : Res Nat × State :=
  if s.counter + 1 < 2 ^ 31 then
    let name := mkName dir pid s.counter
    let s := { s with counter := s.counter + 1 }
    if a.opens = false then (.throws, s)                                                         -- 66-68
    else finish { s with files := openFile name s.files, fds := s.fds + 1 } name (rounded page bytes) a
  else (.ub, s)

/-- What remains of a mapping when the range `[p, p + n)` is unmapped. -/
def cut (p n : Nat) (m : Nat × Nat × Name) : List (Nat × Nat × Name) :=
  if Disj m.1 m.2.1 p n then [m]
  else (if m.1 < p then [(m.1, p - m.1, m.2.2)] else []) ++
    (if p + n < m.1 + m.2.1 then [(p + n, m.1 + m.2.1 - (p + n), m.2.2)] else [])

/-- `munmap(p, n)` when it succeeds. -/
def unmap (p n : Nat) (maps : List (Nat × Nat × Name)) : List (Nat × Nat × Name) := maps.flatMap (cut p n)

/-- `FileMemoryResource::deallocate` (lines 108-135); `um` and `rm` are whether
`munmap` and `remove` succeed.  For an unknown pointer the end iterator is
dereferenced. -/
def deallocate (s : State) (ptr : Nat) (um rm : Bool) : Res Unit × State :=
  match s.map.find? fun e => decide (e.1 = ptr) with
  | none => (.ub, s)
  | some (p, name, n) =>
    if um = false then (.throws, s)                                                              -- 116-119
    else
      let s := { s with maps := unmap p n s.maps }
      if rm = false then (.throws, s)                                                            -- 127-130
      else (.ok (), { s with files := unlink name s.files, map := s.map.filter fun e => e.1 ≠ p })

/-- The loop of the destructor (lines 46-48), all calls succeeding. -/
def destroyLoop : List Nat → State → Res Unit × State
  | [], s => (.ok (), s)
  | p :: ps, s =>
    match deallocate s p true true with
    | (.ok (), s) => destroyLoop ps s
    | r => r

/-- The destructor (lines 38-49). -/
def destroy (s : State) : Res Unit × State := destroyLoop (s.map.map (·.1)) s

/-! ## Use -/

/-- What `mmap` may answer: nothing of length zero, otherwise a page-aligned range
that is not in use. -/
def AnsOk (page n : Nat) (s : State) (a : Ans) : Prop :=
  ∀ p, a.maps = some p → 0 < n ∧ page ∣ p ∧ 0 < p ∧ p + n ≤ AMax ∧ ∀ m ∈ s.maps, Disj m.1 m.2.1 p n

/-- The resource, the operating system, and the allocations the user has not given
back with the sizes requested. -/
structure Sys where
  st : State
  live : Held

/-- One call.  The user deallocates only live pointers.  Any call to the operating
system may fail, except `remove` in `deallocate`; the directory may differ from
call to call. -/
inductive Step (page : Nat) : Sys → Sys → Prop where
  | allocOk {S : Sys} {dir pid n a p s'} : n < W → AnsOk page (rounded page n) S.st a →
      allocate page dir pid S.st n a = (.ok p, s') → Step page S ⟨s', (p, n) :: S.live⟩
  | allocErr {S : Sys} {dir pid n a s'} : n < W → AnsOk page (rounded page n) S.st a →
      allocate page dir pid S.st n a = (.throws, s') → Step page S ⟨s', S.live⟩
  | deallocOk {S : Sys} {p n s'} : (p, n) ∈ S.live →
      deallocate S.st p true true = (.ok (), s') → Step page S ⟨s', drop p S.live⟩
  | deallocErr {S : Sys} {p n rm s'} : (p, n) ∈ S.live →
      deallocate S.st p false rm = (.throws, s') → Step page S ⟨s', S.live⟩

/-- A program start: some files may exist already. -/
def start (files : List (Name × Nat)) : Sys := ⟨⟨0, [], files, [], 0⟩, []⟩

inductive Reach (page : Nat) : Sys → Prop where
  | init {files : List (Name × Nat)} : (files.map (·.1)).Nodup → Reach page (start files)
  | step {S T : Sys} : Reach page S → Step page S T → Reach page T

/-! ## File names -/

theorem suffix_inj {a b x y : Name} (hx : '_' ∉ x) (hy : '_' ∉ y) (h : a ++ ['_'] ++ x = b ++ ['_'] ++ y) : x = y := by
  have key : ∀ (u v : Name), '_' ∉ v → (u ++ ['_'] ++ v).reverse.takeWhile (fun c => c ≠ '_') = v.reverse := by
    intro u v hv
    rw [List.append_assoc, List.reverse_append, List.reverse_append]
    simp only [List.reverse_cons, List.reverse_nil, List.nil_append, List.append_assoc, List.singleton_append]
    rw [List.takeWhile_append_of_pos (by
      intro c hc
      have : c ∈ v := List.mem_reverse.1 hc
      simp only [ne_eq, decide_not, Bool.not_eq_true', decide_eq_false_iff_not]
      intro he; subst he; exact hv this)]
    simp
  have h1 := key a x hx
  rw [h, key b y hy] at h1
  exact List.reverse_inj.1 h1.symm

theorem toDigits_inj {m n : Nat} (h : Nat.toDigits 10 m = Nat.toDigits 10 n) : m = n := by
  have := Nat.ofDigitChars_ten_toDigits (n := m)
  rw [h, Nat.ofDigitChars_ten_toDigits] at this
  exact this.symm

theorem mkName_inj {dir dir' : Name} {pid pid' c c' : Nat} (h : mkName dir pid c = mkName dir' pid' c') : c = c' := by
  unfold mkName at h
  exact toDigits_inj (suffix_inj Nat.underscore_not_in_toDigits Nat.underscore_not_in_toDigits h)

/-! ## The invariant -/

/-- `rounded` is the least multiple of the page size not below the request whenever
it is not zero. -/
theorem rounded_eq {page n : Nat} (hp : 0 < page) (hW : page ≤ W) (hn : n < W) (h : 0 < rounded page n) :
    rounded page n = ceil page n ∧ 0 < n := by
  have h3 : w64 (n + (page - 1)) / page * page ≤ w64 (n + (page - 1)) := Nat.div_mul_le_self _ _
  have h4 : w64 (n + (page - 1)) < W := Nat.mod_lt _ (by decide)
  have h5 : rounded page n = w64 (n + (page - 1)) / page * page := by
    unfold rounded; exact Nat.mod_eq_of_lt (by omega)
  rw [h5] at h ⊢
  by_cases hlt : n + (page - 1) < W
  · have : w64 (n + (page - 1)) = n + (page - 1) := Nat.mod_eq_of_lt hlt
    rw [this] at h ⊢
    refine ⟨rfl, ?_⟩
    cases n with
    | zero => rw [Nat.zero_add, Nat.div_eq_of_lt (by omega)] at h; simp at h
    | succ n => omega
  · have : w64 (n + (page - 1)) = n + (page - 1) - W := by
      unfold w64; rw [Nat.mod_eq_sub_mod (by omega), Nat.mod_eq_of_lt (by omega)]
    rw [this, Nat.div_eq_of_lt (by omega)] at h
    simp at h

structure Inv (page : Nat) (S : Sys) : Prop where
  recs : S.st.map.map (fun e => (e.1, e.2.2)) = S.live.map fun l => (l.1, ceil page l.2)
  maps : S.st.maps = S.st.map.map fun e => (e.1, e.2.2, e.2.1)
  pos : ∀ e ∈ S.st.map, 0 < e.2.2
  disj : S.st.map.Pairwise fun x y => Disj x.1 x.2.2 y.1 y.2.2
  names : ∀ e ∈ S.st.map, ∃ dir pid c, e.2.1 = mkName dir pid c ∧ c < S.st.counter
  nodup : (S.st.map.map (·.2.1)).Nodup
  files : (S.st.files.map (·.1)).Nodup
  sizes : ∀ e ∈ S.st.map, e.2 ∈ S.st.files

theorem openFile_nodup {nm : Name} {fs : List (Name × Nat)} (h : (fs.map (·.1)).Nodup) :
    ((openFile nm fs).map (·.1)).Nodup := by
  unfold openFile
  split
  · exact h
  · rename_i hn
    simp only [List.any_eq_true, decide_eq_true_eq, not_exists, not_and] at hn
    simp only [List.map_cons, List.nodup_cons]
    refine ⟨?_, h⟩
    intro hm
    obtain ⟨f, hf, he⟩ := List.mem_map.1 hm
    exact hn f hf he

theorem setLength_fst {nm : Name} {n : Nat} {fs : List (Name × Nat)} :
    (setLength nm n fs).map (·.1) = fs.map (·.1) := by
  unfold setLength
  rw [List.map_map]
  apply List.map_congr_left
  intro f _
  simp only [Function.comp]
  split <;> simp_all

theorem unlink_nodup {nm : Name} {fs : List (Name × Nat)} (h : (fs.map (·.1)).Nodup) :
    ((unlink nm fs).map (·.1)).Nodup :=
  List.Sublist.nodup (List.Sublist.map _ List.filter_sublist) h

/-- A file other than the one being worked on stays as it is. -/
theorem mem_openFile {nm : Name} {fs : List (Name × Nat)} {f : Name × Nat} (h : f ∈ fs) : f ∈ openFile nm fs := by
  unfold openFile
  split
  · exact h
  · exact List.mem_cons_of_mem _ h

theorem mem_setLength {nm : Name} {n : Nat} {fs : List (Name × Nat)} {f : Name × Nat} (h : f ∈ fs) (hne : f.1 ≠ nm) :
    f ∈ setLength nm n fs := by
  unfold setLength
  exact List.mem_map.2 ⟨f, h, by rw [if_neg hne]⟩

theorem mem_unlink {nm : Name} {fs : List (Name × Nat)} {f : Name × Nat} : f ∈ unlink nm fs ↔ f ∈ fs ∧ f.1 ≠ nm := by
  unfold unlink
  simp [List.mem_filter]

theorem setLength_mem {nm : Name} {n : Nat} {fs : List (Name × Nat)} : (nm, n) ∈ setLength nm n (openFile nm fs) := by
  unfold setLength
  unfold openFile
  split
  · rename_i h
    simp only [List.any_eq_true, decide_eq_true_eq] at h
    obtain ⟨f, hf, he⟩ := h
    exact List.mem_map.2 ⟨f, hf, by rw [if_pos he]⟩
  · exact List.mem_map.2 ⟨(nm, 0), by simp, by simp⟩

theorem fresh_name {page : Nat} {S : Sys} (h : Inv page S) {dir : Name} {pid : Nat} :
    ∀ e ∈ S.st.map, e.2.1 ≠ mkName dir pid S.st.counter := by
  intro e he heq
  obtain ⟨d, q, c, h1, h2⟩ := h.names e he
  rw [h1] at heq
  have := mkName_inj heq
  omega

theorem allocErr_inv {page : Nat} {S : Sys} (h : Inv page S) {dir : Name} {pid n : Nat} {a : Ans} {s' : State}
    (hr : allocate page dir pid S.st n a = (.throws, s')) : Inv page ⟨s', S.live⟩ := by
  have hfr := fresh_name h (dir := dir) (pid := pid)
  unfold allocate at hr
  split at hr
  · simp only at hr
    split at hr
    · injection hr with _ hr; subst hr
      exact ⟨h.recs, h.maps, h.pos, h.disj, fun e he => by
        obtain ⟨d, q, c, h1, h2⟩ := h.names e he; exact ⟨d, q, c, h1, by simp only; omega⟩, h.nodup, h.files, h.sizes⟩
    · unfold finish at hr
      split at hr
      · injection hr with _ hr; subst hr
        refine ⟨h.recs, h.maps, h.pos, h.disj, fun e he => by
          obtain ⟨d, q, c, h1, h2⟩ := h.names e he; exact ⟨d, q, c, h1, by simp only; omega⟩, h.nodup, ?_, ?_⟩
        · simp only; split
          · exact unlink_nodup (openFile_nodup h.files)
          · exact openFile_nodup h.files
        · intro e he
          simp only; split
          · exact mem_unlink.2 ⟨mem_openFile (h.sizes e he), hfr e he⟩
          · exact mem_openFile (h.sizes e he)
      · simp only at hr
        split at hr
        · injection hr with _ hr; subst hr
          refine ⟨h.recs, h.maps, h.pos, h.disj, fun e he => by
            obtain ⟨d, q, c, h1, h2⟩ := h.names e he; exact ⟨d, q, c, h1, by simp only; omega⟩, h.nodup, ?_, ?_⟩
          · simp only; split
            · exact unlink_nodup (by rw [setLength_fst]; exact openFile_nodup h.files)
            · rw [setLength_fst]; exact openFile_nodup h.files
          · intro e he
            simp only; split
            · exact mem_unlink.2 ⟨mem_setLength (mem_openFile (h.sizes e he)) (hfr e he), hfr e he⟩
            · exact mem_setLength (mem_openFile (h.sizes e he)) (hfr e he)
        · injection hr with hr _; cases hr
  · injection hr with hr _; cases hr

/-- A successful `allocate` from a consistent state. -/
theorem allocate_ok {page : Nat} {S : Sys} (h : Inv page S) {dir : Name} {pid n : Nat} {a : Ans} {p : Nat} {s' : State}
    (ha : AnsOk page (rounded page n) S.st a) (hr : allocate page dir pid S.st n a = (.ok p, s')) :
    a.opens = true ∧ a.truncates = true ∧ a.maps = some p ∧
    s' = ⟨S.st.counter + 1, (p, mkName dir pid S.st.counter, rounded page n) :: S.st.map,
      setLength (mkName dir pid S.st.counter) (rounded page n) (openFile (mkName dir pid S.st.counter) S.st.files),
      (p, rounded page n, mkName dir pid S.st.counter) :: S.st.maps, S.st.fds⟩ := by
  unfold allocate at hr
  split at hr
  · simp only at hr
    split at hr
    · injection hr with hr _; cases hr
    · rename_i ho
      unfold finish at hr
      split at hr
      · injection hr with hr _; cases hr
      · rename_i ht
        simp only at hr
        split at hr
        · injection hr with hr _; cases hr
        · rename_i q hm
          injection hr with hr1 hr2
          injection hr1 with hr1
          subst hr1
          obtain ⟨h1, h2, h3, h4, h5⟩ := ha q hm
          refine ⟨by simpa using ho, by simpa using ht, hm, ?_⟩
          subst hr2
          have : (S.st.map.any fun e => decide (e.1 = q)) = false := by
            rw [List.any_eq_false]
            intro e he
            have hp := h.pos e he
            have := h5 (e.1, e.2.2, e.2.1) (by rw [h.maps]; exact List.mem_map_of_mem he)
            simp only [Disj, decide_eq_true_eq] at this ⊢
            omega
          unfold insert
          rw [this]
          simp
  · injection hr with hr _; cases hr

theorem allocOk_inv {page : Nat} (hp : 0 < page) (hW : page ≤ W) {S : Sys} (h : Inv page S) {dir : Name} {pid n : Nat}
    {a : Ans} {p : Nat} {s' : State} (hn : n < W) (ha : AnsOk page (rounded page n) S.st a)
    (hr : allocate page dir pid S.st n a = (.ok p, s')) : Inv page ⟨s', (p, n) :: S.live⟩ := by
  have hfr := fresh_name h (dir := dir) (pid := pid)
  obtain ⟨_, _, hm, rfl⟩ := allocate_ok h ha hr
  obtain ⟨h1, h2, h3, h4, h5⟩ := ha p hm
  have hrd := (rounded_eq hp hW hn h1).1
  refine ⟨?_, ?_, ?_, ?_, ?_, ?_, ?_, ?_⟩
  · simp only [List.map_cons, hrd, h.recs]
  · simp only [List.map_cons, h.maps]
  · intro e he
    rcases List.mem_cons.1 he with rfl | he
    · exact h1
    · exact h.pos e he
  · simp only [List.pairwise_cons]
    refine ⟨fun e he => ?_, h.disj⟩
    have := h5 (e.1, e.2.2, e.2.1) (by rw [h.maps]; exact List.mem_map_of_mem he)
    exact this.symm
  · intro e he
    rcases List.mem_cons.1 he with rfl | he
    · exact ⟨dir, pid, S.st.counter, rfl, by simp only; omega⟩
    · obtain ⟨d, q, c, h1, h2⟩ := h.names e he; exact ⟨d, q, c, h1, by simp only; omega⟩
  · simp only [List.map_cons, List.nodup_cons]
    refine ⟨?_, h.nodup⟩
    intro hm
    obtain ⟨e, he, heq⟩ := List.mem_map.1 hm
    exact hfr e he heq
  · simp only; rw [setLength_fst]; exact openFile_nodup h.files
  · intro e he
    rcases List.mem_cons.1 he with rfl | he
    · exact setLength_mem
    · exact mem_setLength (mem_openFile (h.sizes e he)) (hfr e he)

theorem flatMap_cut {p n : Nat} {l : List (Nat × Nat × Name)} (h : ∀ m ∈ l, Disj m.1 m.2.1 p n) :
    l.flatMap (cut p n) = l := by
  induction l with
  | nil => rfl
  | cons m l ih =>
    rw [List.flatMap_cons, ih fun x hx => h x (by simp [hx])]
    unfold cut
    rw [if_pos (h m (by simp))]
    rfl

/-- Unmapping exactly one of the mappings. -/
theorem unmap_one {l : List (Nat × Name × Nat)} (hd : l.Pairwise fun x y => Disj x.1 x.2.2 y.1 y.2.2)
    (hpos : ∀ e ∈ l, 0 < e.2.2) {e : Nat × Name × Nat} (he : e ∈ l) :
    unmap e.1 e.2.2 (l.map fun e => (e.1, e.2.2, e.2.1)) = (l.filter fun x => x.1 ≠ e.1).map fun e => (e.1, e.2.2, e.2.1) := by
  induction l with
  | nil => cases he
  | cons x l ih =>
    rw [List.pairwise_cons] at hd
    unfold unmap at ih ⊢
    rw [List.map_cons, List.flatMap_cons]
    rcases List.mem_cons.1 he with rfl | hel
    · have h0 := hpos e (by simp)
      have h1 : cut e.1 e.2.2 (e.1, e.2.2, e.2.1) = [] := by
        unfold cut
        rw [if_neg (by simp only [Disj]; omega), if_neg (by simp only; omega), if_neg (by simp only; omega)]
        rfl
      rw [h1, List.nil_append, flatMap_cut]
      · rw [List.filter_cons, if_neg (by simp)]
        congr 1
        symm
        refine List.filter_eq_self.2 fun y hy => ?_
        have := hd.1 y hy
        have := hpos y (by simp [hy])
        simp only [Disj, ne_eq, decide_not, Bool.not_eq_true', decide_eq_false_iff_not] at *
        omega
      · intro m hm
        obtain ⟨y, hy, rfl⟩ := List.mem_map.1 hm
        exact (hd.1 y hy).symm
    · have hdx := hd.1 e hel
      have h0 := hpos e he
      have h0x := hpos x (by simp)
      have h1 : cut e.1 e.2.2 (x.1, x.2.2, x.2.1) = [(x.1, x.2.2, x.2.1)] := by
        unfold cut
        rw [if_pos hdx]
      rw [h1, ih hd.2 (fun y hy => hpos y (by simp [hy])) hel, List.filter_cons, if_pos]
      · rfl
      · simp only [Disj, ne_eq, decide_not, Bool.not_eq_true', decide_eq_false_iff_not] at *
        omega

theorem find_rec {l : List (Nat × Name × Nat)} (hd : l.Pairwise fun x y => Disj x.1 x.2.2 y.1 y.2.2)
    (hpos : ∀ e ∈ l, 0 < e.2.2) {e : Nat × Name × Nat} (he : e ∈ l) :
    l.find? (fun x => decide (x.1 = e.1)) = some e := by
  induction l with
  | nil => cases he
  | cons x l ih =>
    rw [List.pairwise_cons] at hd
    rw [List.find?_cons]
    rcases List.mem_cons.1 he with rfl | hel
    · simp
    · have h1 := hd.1 e hel
      have h2 := hpos e he
      have h3 := hpos x (by simp)
      have : decide (x.1 = e.1) = false := by
        simp only [Disj, decide_eq_false_iff_not] at *; omega
      rw [this]
      exact ih hd.2 (fun y hy => hpos y (by simp [hy])) hel

/-- Live allocations have a record. -/
theorem rec_of_live {page : Nat} {S : Sys} (h : Inv page S) {p n : Nat} (hl : (p, n) ∈ S.live) :
    ∃ nm, (p, nm, ceil page n) ∈ S.st.map := by
  have : (p, ceil page n) ∈ S.st.map.map fun e => (e.1, e.2.2) := by
    rw [h.recs]; exact List.mem_map.2 ⟨(p, n), hl, rfl⟩
  obtain ⟨⟨q, nm, m⟩, he, heq⟩ := List.mem_map.1 this
  injection heq with h1 h2
  simp only at h1 h2
  subst h1 h2
  exact ⟨nm, he⟩

theorem deallocate_eq {page : Nat} {S : Sys} (h : Inv page S) {p n : Nat} {nm : Name} (he : (p, nm, n) ∈ S.st.map)
    (um rm : Bool) :
    deallocate S.st p um rm =
      if um = false then (.throws, S.st)
      else if rm = false then (.throws, { S.st with maps := S.st.maps.filter fun m => m.1 ≠ p })
      else (.ok (), { S.st with
        maps := S.st.maps.filter fun m => m.1 ≠ p, files := unlink nm S.st.files, map := S.st.map.filter fun e => e.1 ≠ p }) := by
  unfold deallocate
  have hf := find_rec h.disj h.pos he
  simp only at hf
  rw [hf]
  have hu := unmap_one h.disj h.pos he
  simp only at hu
  have hmf : S.st.maps.filter (fun m => m.1 ≠ p) = (S.st.map.filter fun e => e.1 ≠ p).map fun e => (e.1, e.2.2, e.2.1) := by
    rw [h.maps, List.filter_map]; rfl
  rw [hmf, h.maps, ← hu]

theorem filter_live {page p : Nat} : ∀ {m : List (Nat × Name × Nat)} {L : Held},
    m.map (fun e => (e.1, e.2.2)) = L.map (fun l => (l.1, ceil page l.2)) →
    (m.filter fun e => e.1 ≠ p).map (fun e => (e.1, e.2.2)) = (drop p L).map fun l => (l.1, ceil page l.2)
  | [], [], _ => rfl
  | [], _ :: _, h => by simp at h
  | _ :: _, [], h => by simp at h
  | e :: m, l :: L, h => by
    simp only [List.map_cons, List.cons.injEq] at h
    have ih := filter_live (p := p) h.2
    have h1 : e.1 = l.1 := congrArg Prod.fst h.1
    unfold drop at ih ⊢
    rw [List.filter_cons, List.filter_cons]
    by_cases hp : l.1 = p
    · rw [if_neg (by simp [h1, hp]), if_neg (by simp [hp])]; exact ih
    · rw [if_pos (by simp [h1, hp]), if_pos (by simp [hp])]
      simp only [List.map_cons, ih, List.cons.injEq, and_true]
      exact h.1

theorem dealloc_inv {page : Nat} {S : Sys} (h : Inv page S) {p n : Nat} {nm : Name} (he : (p, nm, n) ∈ S.st.map) :
    Inv page ⟨{ S.st with
        maps := S.st.maps.filter fun m => m.1 ≠ p, files := unlink nm S.st.files, map := S.st.map.filter fun e => e.1 ≠ p },
      drop p S.live⟩ := by
  refine ⟨filter_live h.recs, ?_, ?_, ?_, ?_, ?_, ?_, ?_⟩
  · simp only; rw [h.maps, List.filter_map]; rfl
  · intro e he; exact h.pos e (List.mem_filter.1 he).1
  · exact h.disj.sublist List.filter_sublist
  · intro e he; exact h.names e (List.mem_filter.1 he).1
  · exact List.Sublist.nodup (List.Sublist.map _ List.filter_sublist) h.nodup
  · exact unlink_nodup h.files
  · intro e hm
    have hm1 := (List.mem_filter.1 hm).1
    have hne := (List.mem_filter.1 hm).2
    simp only [ne_eq, decide_not, Bool.not_eq_true', decide_eq_false_iff_not] at hne
    refine mem_unlink.2 ⟨h.sizes e hm1, ?_⟩
    intro heq
    have hpw := nodup_map_inj h.nodup hm1 he heq
    rw [hpw] at hne
    exact hne rfl

theorem reach_inv {page : Nat} (hp : 0 < page) (hW : page ≤ W) {S : Sys} (h : Reach page S) : Inv page S := by
  induction h with
  | init hf => exact ⟨rfl, rfl, by simp [start], by simp [start], by simp [start], by simp [start], hf, by simp [start]⟩
  | step _ hs ih =>
    cases hs with
    | allocOk hn ha hr => exact allocOk_inv hp hW ih hn ha hr
    | allocErr hn ha hr => exact allocErr_inv ih hr
    | deallocOk hl hr =>
      obtain ⟨nm, he⟩ := rec_of_live ih hl
      rw [deallocate_eq ih he] at hr
      simp only [Bool.true_eq_false, if_false] at hr
      injection hr with _ hr; subst hr
      exact dealloc_inv ih he
    | deallocErr hl hr =>
      obtain ⟨nm, he⟩ := rec_of_live ih hl
      rw [deallocate_eq ih he, if_pos rfl] at hr
      injection hr with _ hr; subst hr
      exact ih

/-! ## C51 -/

/-- The mappings are exactly those of the live allocations, in order: each has the
least multiple of the page size not below the request as its length, and a file of
exactly that length, and no two share a file.  Partial: as long as `remove` does not
fail in `deallocate`, see `file_remove_counterexample`. -/
theorem file_mappings_partial {page : Nat} (hp : 0 < page) (hW : page ≤ W) {S : Sys} (h : Reach page S) :
    S.st.maps.map (fun m => (m.1, m.2.1)) = S.live.map (fun l => (l.1, ceil page l.2)) ∧
    (∀ m ∈ S.st.maps, (m.2.2, m.2.1) ∈ S.st.files) ∧
    (S.st.maps.map (·.2.2)).Nodup ∧ (S.st.files.map (·.1)).Nodup ∧
    (∀ l ∈ S.live, IsRoundUp page l.2 (ceil page l.2)) ∧
    (∀ p, (∃ n, (p, n) ∈ S.live) ↔ ∃ r, (p, r) ∈ S.st.map) := by
  have hi := reach_inv hp hW h
  refine ⟨?_, ?_, ?_, hi.files, fun l _ => QuickPool.ceil_spec hp, fun p => ⟨?_, ?_⟩⟩
  · rw [hi.maps, List.map_map, ← hi.recs]; rfl
  · intro m hm
    rw [hi.maps] at hm
    obtain ⟨e, he, rfl⟩ := List.mem_map.1 hm
    exact hi.sizes e he
  · rw [hi.maps, List.map_map]; exact hi.nodup
  · rintro ⟨n, hn⟩
    obtain ⟨nm, he⟩ := rec_of_live hi hn
    exact ⟨_, he⟩
  · rintro ⟨r, hr⟩
    have : (p, r.2) ∈ S.live.map fun l => (l.1, ceil page l.2) := by
      rw [← hi.recs]; exact List.mem_map.2 ⟨_, hr, rfl⟩
    obtain ⟨l, hl, he⟩ := List.mem_map.1 this
    injection he with h1 _
    exact ⟨l.2, by rw [← h1]; exact hl⟩

/-- `deallocate` of a live pointer: with both calls succeeding, exactly this mapping
is gone, in its full length, and its file; every other file and mapping is as
before.  With `munmap` failing it throws and nothing has changed.  It is never
undefined. -/
theorem file_deallocate {page : Nat} (hp : 0 < page) (hW : page ≤ W) {S : Sys} (h : Reach page S) {p n : Nat}
    (hl : (p, n) ∈ S.live) :
    ∃ nm, (p, ceil page n, nm) ∈ S.st.maps ∧
      (∀ rm, deallocate S.st p false rm = (.throws, S.st)) ∧
      ∃ s', deallocate S.st p true true = (.ok (), s') ∧
        (∀ m, m ∈ s'.maps ↔ m ∈ S.st.maps ∧ m ≠ (p, ceil page n, nm)) ∧
        (∀ f, f ∈ s'.files ↔ f ∈ S.st.files ∧ f.1 ≠ nm) ∧
        (∀ r, (p, r) ∉ s'.map) ∧ s'.fds = S.st.fds := by
  have hi := reach_inv hp hW h
  obtain ⟨nm, he⟩ := rec_of_live hi hl
  refine ⟨nm, by rw [hi.maps]; exact List.mem_map.2 ⟨_, he, rfl⟩, fun rm => by rw [deallocate_eq hi he, if_pos rfl],
    ⟨S.st.counter, S.st.map.filter fun e => e.1 ≠ p, unlink nm S.st.files, S.st.maps.filter fun m => m.1 ≠ p, S.st.fds⟩,
    (deallocate_eq hi he true true).trans (by rw [if_neg (by simp), if_neg (by simp)]), ?_, fun f => mem_unlink, ?_, rfl⟩
  · intro m
    simp only [List.mem_filter, ne_eq, decide_not, Bool.not_eq_true', decide_eq_false_iff_not]
    constructor
    · rintro ⟨h1, h2⟩
      exact ⟨h1, fun hm => h2 (by rw [hm])⟩
    · rintro ⟨h1, h2⟩
      refine ⟨h1, fun hm => h2 ?_⟩
      rw [hi.maps] at h1
      obtain ⟨e, hem, rfl⟩ := List.mem_map.1 h1
      simp only at hm
      have h3 := find_rec hi.disj hi.pos hem
      have h4 := find_rec hi.disj hi.pos he
      simp only [hm] at h3 h4
      rw [h3] at h4
      injection h4 with h4
      rw [h4]
  · intro r hr
    simp [List.mem_filter] at hr

/-- A failing `allocate` leaves all mappings, all records and all files other than
its own as they were. -/
theorem file_allocate_throws {page : Nat} {dir : Name} {pid : Nat} {s s' : State} {n : Nat} {a : Ans}
    (hr : allocate page dir pid s n a = (.throws, s')) :
    s'.maps = s.maps ∧ s'.map = s.map ∧
    (∀ f, f.1 ≠ mkName dir pid s.counter → (f ∈ s'.files ↔ f ∈ s.files)) ∧
    (a.rm = true → a.opens = true → ∀ k, (mkName dir pid s.counter, k) ∉ s'.files) := by
  have ho : ∀ f : Name × Nat, f.1 ≠ mkName dir pid s.counter →
      (f ∈ openFile (mkName dir pid s.counter) s.files ↔ f ∈ s.files) := by
    intro f hf
    unfold openFile
    split
    · rfl
    · simp only [List.mem_cons]
      constructor
      · rintro (rfl | h)
        · exact absurd rfl hf
        · exact h
      · exact Or.inr
  have hs : ∀ (k : Nat) (fs : List (Name × Nat)) (f : Name × Nat), f.1 ≠ mkName dir pid s.counter →
      (f ∈ setLength (mkName dir pid s.counter) k fs ↔ f ∈ fs) := by
    intro k fs f hf
    constructor
    · intro h
      obtain ⟨g, hg, he⟩ := List.mem_map.1 h
      split at he
      · subst he; exact absurd rfl hf
      · subst he; exact hg
    · intro h; exact mem_setLength h hf
  unfold allocate at hr
  split at hr
  · simp only at hr
    split at hr
    · rename_i hop
      injection hr with _ hr; subst hr
      exact ⟨rfl, rfl, fun f _ => Iff.rfl, fun _ h => by rw [hop] at h; cases h⟩
    · unfold finish at hr
      split at hr
      · injection hr with _ hr; subst hr
        refine ⟨rfl, rfl, ?_, ?_⟩
        · intro f hf
          simp only
          split
          · rw [mem_unlink, ho f hf]; exact ⟨fun h => h.1, fun h => ⟨h, hf⟩⟩
          · exact ho f hf
        · intro hrm _ k hk
          simp only [hrm, if_true] at hk
          exact (mem_unlink.1 hk).2 rfl
      · simp only at hr
        split at hr
        · injection hr with _ hr; subst hr
          refine ⟨rfl, rfl, ?_, ?_⟩
          · intro f hf
            simp only
            split
            · rw [mem_unlink, hs _ _ f hf, ho f hf]; exact ⟨fun h => h.1, fun h => ⟨h, hf⟩⟩
            · rw [hs _ _ f hf, ho f hf]
          · intro hrm _ k hk
            simp only [hrm, if_true] at hk
            exact (mem_unlink.1 hk).2 rfl
        · injection hr with hr _; cases hr
  · injection hr with hr _; cases hr

theorem destroyLoop_spec {page : Nat} : ∀ (ps : List Nat) {S : Sys}, Inv page S → S.st.map.map (·.1) = ps →
    ∃ s', destroyLoop ps S.st = (.ok (), s') ∧ s'.maps = [] ∧ s'.map = [] ∧
      ∀ f, f ∈ s'.files ↔ f ∈ S.st.files ∧ ∀ e ∈ S.st.map, e.2.1 ≠ f.1
  | [], S, h, hps => by
    have hm : S.st.map = [] := List.map_eq_nil_iff.1 hps
    exact ⟨S.st, rfl, by rw [h.maps, hm]; rfl, hm, by simp [hm]⟩
  | p :: ps, S, h, hps => by
    obtain ⟨e, m, hm⟩ : ∃ e m, S.st.map = e :: m := by
      cases hS : S.st.map with
      | nil => rw [hS] at hps; simp at hps
      | cons e m => exact ⟨e, m, rfl⟩
    obtain ⟨q, nm, n⟩ := e
    rw [hm] at hps
    simp only [List.map_cons, List.cons.injEq] at hps
    obtain ⟨rfl, hps⟩ := hps
    have he : (q, nm, n) ∈ S.st.map := by rw [hm]; simp
    have hd := dealloc_inv h he
    have hfil : S.st.map.filter (fun e => e.1 ≠ q) = m := by
      rw [hm, List.filter_cons, if_neg (by simp)]
      refine List.filter_eq_self.2 fun y hy => ?_
      have h1 := h.disj
      have h2 := h.pos
      rw [hm] at h1 h2
      have := (List.pairwise_cons.1 h1).1 y hy
      have := h2 y (by simp [hy])
      have := h2 (q, nm, n) (by simp)
      simp only [Disj, ne_eq, decide_not, Bool.not_eq_true', decide_eq_false_iff_not] at *
      omega
    obtain ⟨s', h1, h2, h3, h4⟩ := destroyLoop_spec ps hd (by simp only; rw [hfil]; exact hps)
    refine ⟨s', ?_, h2, h3, ?_⟩
    · unfold destroyLoop
      rw [deallocate_eq h he, if_neg (by simp), if_neg (by simp)]
      exact h1
    · intro f
      rw [h4, hfil, mem_unlink, hm]
      simp only [List.mem_cons, forall_eq_or_imp]
      constructor
      · rintro ⟨⟨a, b⟩, c⟩; exact ⟨a, Ne.symm b, c⟩
      · rintro ⟨a, b, c⟩; exact ⟨⟨a, Ne.symm b⟩, c⟩

/-- The destructor gives back everything: it removes every mapping and the file of
every live allocation, and no other file. -/
theorem file_destroy {page : Nat} (hp : 0 < page) (hW : page ≤ W) {S : Sys} (h : Reach page S) :
    ∃ s', destroy S.st = (.ok (), s') ∧ s'.maps = [] ∧
      ∀ f, f ∈ s'.files ↔ f ∈ S.st.files ∧ ∀ m ∈ S.st.maps, m.2.2 ≠ f.1 := by
  have hi := reach_inv hp hW h
  obtain ⟨s', h1, h2, _, h4⟩ := destroyLoop_spec _ hi rfl
  refine ⟨s', h1, h2, fun f => ?_⟩
  rw [h4, hi.maps]
  constructor
  · rintro ⟨a, b⟩
    refine ⟨a, fun m hm => ?_⟩
    obtain ⟨e, he, rfl⟩ := List.mem_map.1 hm
    exact b e he
  · rintro ⟨a, b⟩
    exact ⟨a, fun e he => b _ (List.mem_map.2 ⟨e, he, rfl⟩)⟩

/-! ### Non-vacuity and negations -/

/-- The file of the `c`-th allocation of process 17. -/
def nm (c : Nat) : Name := mkName "./".toList 17 c

def sys1 : Sys :=
  ⟨⟨1, [(8192, nm 0, 8192)], [(nm 0, 8192), ("x".toList, 3)], [(8192, 8192, nm 0)], 0⟩, [(8192, 5000)]⟩

def sys2 : Sys :=
  ⟨⟨2, [(8192, nm 0, 8192)], [(nm 0, 8192), ("x".toList, 3)], [(8192, 8192, nm 0)], 1⟩, [(8192, 5000)]⟩

/-- Two allocations of 5000 and 1 bytes with 4096-byte pages; a failed one in between. -/
def sysX : Sys :=
  ⟨⟨3, [(40960, nm 2, 4096), (8192, nm 0, 8192)], [(nm 2, 4096), (nm 0, 8192), ("x".toList, 3)],
      [(40960, 4096, nm 2), (8192, 8192, nm 0)], 1⟩, [(40960, 1), (8192, 5000)]⟩

theorem sys1_reach : Reach 4096 sys1 :=
  .step (.init (files := [("x".toList, 3)]) (by decide))
    (.allocOk (S := start [("x".toList, 3)]) (dir := "./".toList) (pid := 17) (n := 5000) (a := ⟨true, true, some 8192, true⟩)
      (p := 8192) (by decide)
      (by intro p hp; injection hp with hp; subst hp; exact ⟨by decide, by decide, by decide, by decide, by simp [start]⟩)
      (by decide +kernel))

theorem sys2_reach : Reach 4096 sys2 :=
  .step sys1_reach
    (.allocErr (S := sys1) (dir := "./".toList) (pid := 17) (n := 100) (a := ⟨true, true, none, true⟩) (by decide)
      (by intro p hp; cases hp) (by decide +kernel))

theorem sysX_reach : Reach 4096 sysX :=
  .step sys2_reach
    (.allocOk (S := sys2) (dir := "./".toList) (pid := 17) (n := 1) (a := ⟨true, true, some 40960, true⟩)
      (p := 40960) (by decide)
      (by intro p hp; injection hp with hp; subst hp; exact ⟨by decide, by decide, by decide, by decide, by decide⟩)
      (by decide +kernel))

example : sysX.st.maps.map (fun m => (m.1, m.2.1)) = [(40960, 4096), (8192, 8192)] :=
  (file_mappings_partial (by decide) (by decide) sysX_reach).1

example : ∃ nm, (8192, 8192, nm) ∈ sysX.st.maps ∧ ∃ s', deallocate sysX.st 8192 true true = (.ok (), s') ∧ s'.fds = 1 := by
  obtain ⟨nm, h1, _, s', h2, _, _, _, h3⟩ := file_deallocate (by decide) (by decide) sysX_reach (p := 8192) (n := 5000) (by decide)
  exact ⟨nm, h1, s', h2, h3⟩

example : ∃ s', destroy sysX.st = (.ok (), s') ∧ ∀ f, f ∈ s'.files ↔ f ∈ sysX.st.files ∧ ∀ m ∈ sysX.st.maps, m.2.2 ≠ f.1 := by
  obtain ⟨s', h1, _, h3⟩ := file_destroy (by decide) (by decide) sysX_reach
  exact ⟨s', h1, h3⟩

/-- Negation of the rest of C51: when `remove` fails, `deallocate` throws with the
memory unmapped and the record kept.  The operating system may hand out the same
address again; the record of the new allocation is then not stored, and deallocating
it unmaps the old length (here one page of three) and removes the old file. -/
theorem file_remove_counterexample :
    ∃ (S : Sys) (s1 s2 s3 : State) (a : Ans), Reach 4096 S ∧ S.live = [(8192, 1)] ∧
      deallocate S.st 8192 true false = (.throws, s1) ∧ s1.maps = [] ∧
      AnsOk 4096 (rounded 4096 12288) s1 a ∧ allocate 4096 "./".toList 17 s1 12288 a = (.ok 8192, s2) ∧
      s2.maps.map (fun m => (m.1, m.2.1)) = [(8192, 12288)] ∧
      deallocate s2 8192 true true = (.ok (), s3) ∧ s3.maps = [(12288, 8192, nm 1)] :=
  ⟨⟨⟨1, [(8192, nm 0, 4096)], [(nm 0, 4096)], [(8192, 4096, nm 0)], 0⟩, [(8192, 1)]⟩,
    ⟨1, [(8192, nm 0, 4096)], [(nm 0, 4096)], [], 0⟩,
    ⟨2, [(8192, nm 0, 4096)], [(nm 1, 12288), (nm 0, 4096)], [(8192, 12288, nm 1)], 0⟩,
    ⟨2, [], [(nm 1, 12288)], [(12288, 8192, nm 1)], 0⟩, ⟨true, true, some 8192, true⟩,
    .step (.init (files := []) (by decide))
      (.allocOk (S := start []) (dir := "./".toList) (pid := 17) (n := 1) (a := ⟨true, true, some 8192, true⟩)
        (p := 8192) (by decide)
        (by intro p hp; injection hp with hp; subst hp; exact ⟨by decide, by decide, by decide, by decide, by simp [start]⟩)
        (by decide +kernel)),
    rfl, by decide +kernel, rfl,
    by intro p hp; injection hp with hp; subst hp; exact ⟨by decide, by decide, by decide, by decide, by simp⟩,
    by decide +kernel, rfl, by decide +kernel, rfl⟩

/-- A failing `allocate` that got as far as opening its file never closes it. -/
theorem file_descriptor_leak {page : Nat} {dir : Name} {pid : Nat} {s s' : State} {n : Nat} {a : Ans}
    (hr : allocate page dir pid s n a = (.throws, s')) : s'.fds = if a.opens then s.fds + 1 else s.fds := by
  unfold allocate at hr
  split at hr
  · simp only at hr
    split at hr
    · rename_i h; injection hr with _ hr; subst hr; rw [h]; rfl
    · rename_i h
      have h : a.opens = true := by simpa using h
      rw [h]
      unfold finish at hr
      split at hr
      · injection hr with _ hr; subst hr; rfl
      · simp only at hr
        split at hr
        · injection hr with _ hr; subst hr; rfl
        · injection hr with hr _; cases hr
  · injection hr with hr _; cases hr

example : ∃ s', allocate 4096 [] 17 (start []).st 1 ⟨true, false, none, true⟩ = (.throws, s') ∧ s'.fds = 1 :=
  ⟨_, rfl, rfl⟩

/-- `allocate` succeeds exactly when the operating system opens, extends and maps the
file, and then returns the address of the mapping; fewer than `2^31 - 1` calls so far. -/
theorem file_allocate_succeeds {page : Nat} {dir : Name} {pid : Nat} {s : State} {n : Nat} {a : Ans} (hs : s.counter + 1 < 2 ^ 31)
    (p : Nat) :
    (∃ s', allocate page dir pid s n a = (.ok p, s')) ↔ a.opens = true ∧ a.truncates = true ∧ a.maps = some p := by
  unfold allocate
  rw [if_pos hs]
  obtain ⟨o, t, m, r⟩ := a
  cases o <;> cases t <;> cases m <;> simp [finish]

example : ∃ s', allocate 4096 [] 17 sysX.st 1 ⟨true, true, some 81920, true⟩ = (.ok 81920, s') :=
  (file_allocate_succeeds (by decide) 81920).2 ⟨rfl, rfl, rfl⟩

end Umpire.FileRes
