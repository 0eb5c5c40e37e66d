/-!
# Model of the buffer factories

`arolla/memory/raw_buffer_factory.h`, `arolla/memory/raw_buffer_factory.cc`.

An address is a natural number: additions of an address and a size are assumed not to exceed 64 bits.  A memory is a function from
addresses to bytes.  `page_size_` is assumed not negative.  The `shared_ptr` of a block is its address and size in the list of held
blocks.  The base factory is an oracle.
-/

namespace Verif.Arena

/-- A block of memory: its address and its size. -/
abbrev Block := Nat × Nat

/-- `UnsafeArenaBufferFactory` — raw_buffer_factory.h:104-152.  `used` is `page_id_ + 1`. -/
structure Arena where
  used : Nat := 0
  cur : Nat := 8
  fin : Nat := 8
  pageSize : Nat
  pages : List Nat := []
  bigs : List Block := []

/-- What `pages_` and `big_allocs_` keep alive. -/
def Arena.held (a : Arena) : List Block := a.pages.map (·, a.pageSize) ++ a.bigs

/-- `NextPage` — raw_buffer_factory.cc:144-155; `none` for an index out of range. -/
def nextPage (base : List Block → Nat → Nat) (a : Arena) : Option Arena :=
  if a.used = a.pages.length then
    let page := base a.held a.pageSize
    some { a with used := a.used + 1, cur := page, fin := page + a.pageSize, pages := a.pages ++ [page] }
  else
    match a.pages[a.used]? with
    | none => none
    | some page => some { a with used := a.used + 1, cur := page, fin := page + a.pageSize }

/-- `SlowAlloc` — raw_buffer_factory.cc:129-142. -/
def slowAlloc (base : List Block → Nat → Nat) (a : Arena) (nbytes : Nat) : Option (Arena × Nat) :=
  if nbytes > a.pageSize ∨ (a.fin : Int) - a.cur ≥ (a.pageSize / 2 : Nat) then
    let memory := base a.held nbytes
    some ({ a with bigs := a.bigs ++ [(memory, nbytes)] }, memory)
  else
    match nextPage base a with
    | none => none
    | some b => some ({ b with cur := b.cur + nbytes }, b.cur)

/-- `CreateRawBuffer` — raw_buffer_factory.cc:90-99. -/
def createRawBuffer (base : List Block → Nat → Nat) (a : Arena) (nbytes : Nat) : Option (Arena × Nat) :=
  let last := (a.cur + 7) / 8 * 8
  if last + nbytes > a.fin then slowAlloc base a nbytes
  else some ({ a with cur := last + nbytes }, last)

/-- `memcpy`; overlapping ranges are undefined behaviour. -/
def memcpy (mem : Nat → Nat) (dst src n : Nat) : Option (Nat → Nat) :=
  if n = 0 ∨ dst + n ≤ src ∨ src + n ≤ dst then
    some (fun x => if dst ≤ x ∧ x < dst + n then mem (src + (x - dst)) else mem x)
  else none

/-- `ReallocRawBuffer` — raw_buffer_factory.cc:101-117; `data == last_alloc` is `data + old_size = current_`. -/
def reallocRawBuffer (base : List Block → Nat → Nat) (a : Arena) (mem : Nat → Nat) (data oldSize newSize : Nat) :
    Option (Arena × (Nat → Nat) × Nat) :=
  if data + oldSize ≠ a.cur ∨ data + newSize > a.fin then
    if oldSize ≥ newSize then some (a, mem, data)
    else
      let b := if data + oldSize = a.cur then { a with cur := data } else a
      match slowAlloc base b newSize with
      | none => none
      | some (c, newData) =>
        match memcpy mem newData data (min oldSize newSize) with
        | none => none
        | some mem' => some (c, mem', newData)
  else some ({ a with cur := data + newSize }, mem, data)

/-- `Reset` — raw_buffer_factory.cc:119-127. -/
def reset (a : Arena) : Option Arena :=
  if a.used ≥ 1 then
    match a.pages[0]? with
    | none => none
    | some page => some { a with used := 1, cur := page, fin := page + a.pageSize, bigs := [] }
  else some { a with bigs := [] }

/-! ## A client of the arena -/

/-- What a client does: it creates a buffer, resizes its buffer `i`, writes the byte `v` at the position `j` of its buffer `i`, and
resets the arena, after which it has no buffers. -/
inductive Op where
  | create (nbytes : Nat)
  | realloc (i newSize : Nat)
  | write (i j v : Nat)
  | reset

/-- The arena, the memory, and the buffers of the client. -/
structure World where
  arena : Arena
  mem : Nat → Nat
  bufs : List Block

/-- One operation; `none` is undefined behaviour. -/
def step (base : List Block → Nat → Nat) (w : World) : Op → Option World
  | .create n =>
    match createRawBuffer base w.arena n with
    | none => none
    | some (a, data) => some { w with arena := a, bufs := w.bufs ++ [(data, n)] }
  | .realloc i n =>
    match w.bufs[i]? with
    | none => none
    | some (data, old) =>
      match reallocRawBuffer base w.arena w.mem data old n with
      | none => none
      | some (a, mem, data') => some { arena := a, mem := mem, bufs := w.bufs.set i (data', n) }
  | .write i j v =>
    match w.bufs[i]? with
    | none => none
    | some (data, _) => some { w with mem := fun x => if x = data + j then v else w.mem x }
  | .reset =>
    match Verif.Arena.reset w.arena with
    | none => none
    | some a => some { w with arena := a, bufs := [] }

/-- A program; the answers of the base factory may depend on the number `t` of the operation. -/
def run (base : Nat → List Block → Nat → Nat) : Nat → World → List Op → Option World
  | _, w, [] => some w
  | t, w, op :: ops =>
    match step (base t) w op with
    | none => none
    | some w' => run base (t + 1) w' ops

/-! ## The heap factory -/

/-- `HeapBufferFactory::CreateRawBuffer` — raw_buffer_factory.cc:45-52; the heap is an oracle. -/
def heapCreate (heap : List Block → Nat → Nat) (held : List Block) (nbytes : Nat) : List Block × Nat :=
  if nbytes = 0 then (held, 0) else let data := heap held nbytes; (held ++ [(data, nbytes)], data)

/-- `HeapBufferFactory::ReallocRawBuffer` — raw_buffer_factory.cc:54-72.  `old_buffer` is the only owner of the old block.  When the new size is
zero it is the caller who releases the old block, by overwriting `old_buffer` with the result. -/
def heapRealloc (heap : List Block → Nat → Nat) (held : List Block) (mem : Nat → Nat) (data oldSize newSize : Nat) :
    Option (List Block × (Nat → Nat) × Nat) :=
  if newSize = 0 then some (held.erase (data, oldSize), mem, 0)
  else if oldSize = 0 then let r := heapCreate heap held newSize; some (r.1, mem, r.2)
  else
    let newData := heap held newSize
    match memcpy mem newData data (min oldSize newSize) with
    | none => none
    | some mem' => some (held.erase (data, oldSize) ++ [(newData, newSize)], mem', newData)

/-- One operation of a client of the heap factory; instead of a reset it drops all its buffers. -/
def heapStep (heap : List Block → Nat → Nat) (held : List Block) (mem : Nat → Nat) (bufs : List Block) :
    Op → Option (List Block × (Nat → Nat) × List Block)
  | .create n => let r := heapCreate heap held n; some (r.1, mem, bufs ++ [(r.2, n)])
  | .realloc i n =>
    match bufs[i]? with
    | none => none
    | some (data, old) =>
      match heapRealloc heap held mem data old n with
      | none => none
      | some (h, mem', data') => some (h, mem', bufs.set i (data', n))
  | .write i j v =>
    match bufs[i]? with
    | none => none
    | some (data, _) => some (held, (fun x => if x = data + j then v else mem x), bufs)
  | .reset => some ([], mem, [])

/-- A program that uses the heap factory. -/
def heapRun (heap : Nat → List Block → Nat → Nat) : Nat → List Block × (Nat → Nat) × List Block → List Op →
    Option (List Block × (Nat → Nat) × List Block)
  | _, s, [] => some s
  | t, s, op :: ops =>
    match heapStep (heap t) s.1 s.2.1 s.2.2 op with
    | none => none
    | some s' => heapRun heap (t + 1) s' ops

end Verif.Arena
