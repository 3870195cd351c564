/-!
# Model of the Judy tree (src/tpl/umpire/judy/judy.c) with 64-bit integer keys

Umpire opens the tree with `depth = 1` (src/umpire/util/MemoryMap.inl:22): a key is
one 64-bit integer, taken apart from its most significant byte on.  A tree over
the `k` least significant bytes of the key (`keysize` is `k`) is

* empty (a null pointer),
* a list node (`JUDY_1` … `JUDY_32`): an array of slots, each a `k`-byte key and a
  cell, in increasing order, with the unused slots (key 0, null cell) first,
* a radix node: 256 subtrees selected by the most significant of the `k` bytes.

A tree over 0 bytes is a cell.  Since `depth = 1`, the cells of list nodes are
values, never further nodes.  A cell is the value stored (`none` is null).

The cursor (`judy->stack`) is the list of the slots chosen on the path from the
root.  A slot can be -1, so positions are kept as *slot plus one*.  The pointer to
a cell that the functions return is modelled the same way (a path).

Simplifications: the two levels of a radix node (16 times 16) are one level of
256, which is the same since no empty inner node is ever kept; nodes are values,
so `judy_alloc`, `judy_free` and their free lists are not modelled, and neither is
failure of `malloc` (which the code does not check); `judy->max` is 9 and levels
never exceed 8.  Little-endian (`BYTE_ORDER != BIG_ENDIAN`).  Span nodes occur
only in string trees.
-/
set_option autoImplicit false
namespace Umpire.Judy
variable {V : Type}

/-- A node over `k + 1` key bytes; `α` is the type of its subtrees over `k` bytes. -/
inductive Node (V α : Type) where
  | nil
  | list (type : Nat) (slots : List (Nat × Option V))
  | radix (child : Nat → α)

/-- Trees over the `k` least significant bytes of the key. -/
@[reducible] def T (V : Type) : Nat → Type
  | 0 => Option V
  | k + 1 => Node V (T V k)

/-- The null pointer. -/
def empty : (k : Nat) → T V k
  | 0 => (none : Option V)
  | k + 1 => (Node.nil : Node V (T V k))

/-- Is the pointer null? -/
def isNil : (k : Nat) → T V k → Bool
  | 0, (c : Option V) => c.isNone
  | _ + 1, Node.nil => true
  | _ + 1, Node.list _ _ => false
  | _ + 1, Node.radix _ => false

/-- `JudySize` of list node types (judy.c:81-94): 16, 32, …, 512 bytes. -/
def judySize (type : Nat) : Nat := 2 ^ (type + 3)

/-- Number of slots of a list node (`cnt`, judy.c:485). -/
def cap (type k : Nat) : Nat := judySize type / (8 + k)

/-- Store a pointer in a radix table. -/
def upd {α : Type} (ch : Nat → α) (b : Nat) (x : α) : Nat → α := fun i => if i = b then x else ch i

/-- The search loop "find slot > key" (judy.c:504-514, 1321-1331): the highest of the
first `n` slots whose key is at most `v`, plus one. -/
def scan (v : Nat) (sl : List (Nat × Option V)) : Nat → Nat
  | 0 => 0
  | n + 1 => if (sl[n]?.map (·.1)).getD 0 ≤ v then n + 1 else scan v sl n

/-- The comparison `test == value` (judy.c:518, 1335). -/
def hit (v : Nat) (sl : List (Nat × Option V)) (p : Nat) : Bool :=
  match p with
  | 0 => false
  | s + 1 => (sl[s]?.map (·.1)).getD 0 = v

/-- `judy_slot` (judy.c:445-595): the cell found, if any, and the cursor. -/
def slotF : (k : Nat) → T V k → Nat → Option (List Nat) × List Nat
  | 0, (c : Option V), _ => (if c.isSome then some [] else none, [])
  | _ + 1, Node.nil, _ => (none, [])
  | _ + 1, Node.list _ sl, v =>
    let p := scan v sl sl.length
    (if hit v sl p then some [p] else none, [p])
  | k + 1, Node.radix ch, v =>
    let b := v / 256 ^ k % 256                                                      -- 536
    let r := slotF k (ch b) (v % 256 ^ k)
    (r.1.map ((b + 1) :: ·), (b + 1) :: r.2)

/-- The lowest non-null entry of a radix table from `a` on (judy.c:814-829, 1004-1017). -/
def lowest {α : Type} (nil : α → Bool) (ch : Nat → α) (a : Nat) : Option Nat :=
  (List.range 256).find? fun i => decide (a ≤ i) && !nil (ch i)

/-- The highest non-null entry of a radix table below `a` (judy.c:901-916, 1088-1100). -/
def highest {α : Type} (nil : α → Bool) (ch : Nat → α) (a : Nat) : Option Nat :=
  (List.range 256).reverse.find? fun i => decide (i < a) && !nil (ch i)

/-- `judy_first` (judy.c:756-846): the first cell, which is also the cursor.  (For a
list node without values or a radix node without subtrees, which do not occur,
the C code would misbehave; here the result is `none`.) -/
def firstF : (k : Nat) → T V k → Option (List Nat)
  | 0, (c : Option V) => if c.isSome then some [] else none
  | _ + 1, Node.nil => none
  | _ + 1, Node.list _ sl => (sl.findIdx? fun e => e.2.isSome).map fun i => [i + 1]   -- 787-795
  | k + 1, Node.radix ch =>
    match lowest (isNil k) ch 0 with
    | none => none
    | some i => (firstF k (ch i)).map ((i + 1) :: ·)

/-- The cell of the entry `i` of a radix table that `judy_last` and `judy_prv` return
when the entries are cells: `&inner[0]` (judy.c:908, 1094). -/
def innerZero (k i : Nat) : Nat := if k = 0 then i - i % 16 else i

/-- `judy_last` (judy.c:850-934): the cell returned, and the cursor. -/
def lastF : (k : Nat) → T V k → Option (List Nat) × List Nat
  | 0, _ => (some [], [])
  | _ + 1, Node.nil => (none, [])
  | _ + 1, Node.list _ sl => (some [sl.length], [sl.length])                          -- 875-886
  | k + 1, Node.radix ch =>
    match highest (isNil k) ch 256 with
    | none => (none, [])
    | some i =>
      let r := lastF k (ch i)
      (r.1.map ((innerZero k i + 1) :: ·), (i + 1) :: r.2)

/-- `judy_nxt` (judy.c:944-1029) below the root: the next cell, which is also the
cursor; `none` when the level is left. -/
def nxtF : (k : Nat) → T V k → List Nat → Option (List Nat)
  | 0, _, _ => none
  | _ + 1, Node.nil, _ => none
  | _ + 1, Node.list _ sl, p :: _ => if p < sl.length then some [p + 1] else none     -- 976-994
  | _ + 1, Node.list _ _, [] => none
  | k + 1, Node.radix ch, p :: rest =>
    match nxtF k (ch (p - 1)) rest with
    | some c => some (p :: c)
    | none =>
      match lowest (isNil k) ch p with
      | none => none
      | some i => (firstF k (ch i)).map ((i + 1) :: ·)
  | _ + 1, Node.radix _, [] => none

/-- `judy_prv` (judy.c:1033-1113) below the root: the cell returned and the cursor;
`none` when the level is left.  (With slot -1, which does not occur here, the C
code reads outside the node.) -/
def prvF : (k : Nat) → T V k → List Nat → Option (Option (List Nat) × List Nat)
  | 0, _, _ => none
  | _ + 1, Node.nil, _ => none
  | _ + 1, Node.list _ sl, p :: _ =>
    match p with
    | s + 2 => if (sl[s]?.bind (·.2)).isSome then some (some [s + 1], [s + 1]) else none   -- 1062-1077
    | _ => none
  | _ + 1, Node.list _ _, [] => none
  | k + 1, Node.radix ch, p :: rest =>
    match prvF k (ch (p - 1)) rest with
    | some r => some (r.1.map (p :: ·), p :: r.2)
    | none =>
      match highest (isNil k) ch (p - 1) with
      | none => none
      | some i =>
        let r := lastF k (ch i)
        some (r.1.map ((innerZero k i + 1) :: ·), (i + 1) :: r.2)
  | _ + 1, Node.radix _, [] => none

/-- `judy_key` (judy.c:323-441) for a complete cursor. -/
def keyF : (k : Nat) → T V k → List Nat → Nat
  | 0, _, _ => 0
  | _ + 1, Node.nil, _ => 0
  | _ + 1, Node.list _ sl, p :: _ => (sl[p - 1]?.map (·.1)).getD 0                    -- 358-371
  | _ + 1, Node.list _ _, [] => 0
  | k + 1, Node.radix ch, p :: rest => (p - 1) * 256 ^ k + keyF k (ch (p - 1)) rest   -- 402-418
  | _ + 1, Node.radix _, [] => 0

/-- Are all 256 entries null? -/
def allNil {α : Type} (nil : α → Bool) (ch : Nat → α) : Bool := (List.range 256).all fun i => nil (ch i)

/-- `judy_del` (judy.c:1118-1209) for a complete cursor. -/
def delF : (k : Nat) → T V k → List Nat → T V k
  | 0, _, _ => (none : Option V)
  | _ + 1, Node.nil, _ => Node.nil
  | _ + 1, Node.list ty sl, p :: _ =>
    let sl' := (0, none) :: (sl.take (p - 1) ++ sl.drop p)                            -- 1149-1158
    if ((sl'.getLast?).bind (·.2)).isSome then Node.list ty sl' else Node.nil         -- 1160-1168
  | _ + 1, Node.list ty sl, [] => Node.list ty sl
  | k + 1, Node.radix ch, p :: rest =>
    let ch' := upd ch (p - 1) (delF k (ch (p - 1)) rest)
    if allNil (isNil k) ch' then Node.nil else Node.radix ch'                         -- 1170-1193
  | _ + 1, Node.radix ch, [] => Node.radix ch

/-- The smallest node type with enough slots (judy.c:688-692). -/
def pickType (cnt k : Nat) : Nat :=
  ((List.range 6).find? fun i => decide (cnt ≤ cap (i + 1) k)).getD 5 + 1

/-- `judy_radix` (judy.c:662-711): the subtree for the slots `g`, whose most
significant byte agrees; `k` bytes remain. -/
def radixNode : (k : Nat) → List (Nat × Option V) → T V k
  | 0, g => (g.head?.bind (·.2) : Option V)                                           -- 681-684
  | k + 1, g =>
    let ty := pickType g.length (k + 1)
    (Node.list ty (List.replicate (cap ty (k + 1) - g.length) (0, none) ++ g.map fun e => (e.1 % 256 ^ (k + 1), e.2)) :
      Node V (T V k))

/-- The loop of `judy_splitnode` (judy.c:729-750): `key` is the current byte, `g` the
slots since `start`. -/
def splitLoop (k : Nat) (ch : Nat → T V k) (key : Nat) (g : List (Nat × Option V)) : List (Nat × Option V) → Nat → T V k
  | [] => upd ch key (radixNode k g)
  | e :: rest =>
    if e.1 / 256 ^ k = key then splitLoop k ch key (g ++ [e]) rest
    else splitLoop k (upd ch key (radixNode k g)) (e.1 / 256 ^ k) [e] rest

/-- `judy_splitnode` (judy.c:715-752): a full list node over `k + 1` bytes becomes a
radix node. -/
def splitNode (k : Nat) (sl : List (Nat × Option V)) : Nat → T V k :=
  match sl with
  | [] => fun _ => empty k
  | e :: rest => splitLoop k (fun _ => empty k) (e.1 / 256 ^ k) [e] rest

/-- What `judy_cell` does at one node (judy.c:1286-1459): either it is done, with the
new node and the position of the cell, or it goes on with a radix node. -/
inductive Place (V α : Type) where
  | done (t : Node V α) (p : Nat)
  | down (child : Nat → α)

def place (k : Nat) (v : Nat) : Node V (T V k) → Place V (T V k)
  | .nil => .done (.list 1 [(v, none)]) 1                                             -- 1497-1549, 1581-1600
  | .list ty sl =>
    let p := scan v sl sl.length
    if hit v sl p then .done (.list ty sl) p                                          -- 1335-1349
    else if (sl[0]?.bind (·.2)).isNone then                                           -- 1357-1385
      .done (.list ty ((sl.take p).drop 1 ++ [(v, none)] ++ sl.drop p)) p
    else if ty < 6 then                                                               -- 1390-1402; judy_promote 599-656
      let d := cap (ty + 1) (k + 1) - sl.length
      .done (.list (ty + 1) (List.replicate (d - 1) (0, none) ++ sl.take p ++ [(v, none)] ++ sl.drop p)) (p + d)
    else .down (splitNode k sl)                                                       -- 1410-1418
  | .radix ch => .down ch

/-- `judy_cell` (judy.c:1268-1607): the tree with a cell for the key, and the cell
(which is also the cursor). -/
def cellF : (k : Nat) → T V k → Nat → T V k × List Nat
  | 0, c, _ => (c, [])
  | k + 1, t, v =>
    match place k v t with
    | .done t' p => (t', [p])
    | .down ch =>
      let b := v / 256 ^ k % 256
      let r := cellF k (ch b) (v % 256 ^ k)
      ((Node.radix (upd ch b r.1) : Node V (T V k)), (b + 1) :: r.2)

/-- Read a cell through the pointer returned. -/
def readAt : (k : Nat) → T V k → List Nat → Option V
  | 0, (c : Option V), _ => c
  | _ + 1, Node.list _ sl, p :: _ => sl[p - 1]?.bind (·.2)
  | k + 1, Node.radix ch, p :: rest => readAt k (ch (p - 1)) rest
  | _ + 1, _, _ => none

/-- Write a cell through the pointer returned. -/
def writeAt : (k : Nat) → T V k → List Nat → Option V → T V k
  | 0, _, _, c => c
  | _ + 1, Node.list ty sl, p :: _, c => Node.list ty (sl.set (p - 1) ((sl[p - 1]?.map (·.1)).getD 0, c))
  | k + 1, Node.radix ch, p :: rest, c => Node.radix (upd ch (p - 1) (writeAt k (ch (p - 1)) rest c))
  | _ + 1, t, _, _ => t

end Umpire.Judy
