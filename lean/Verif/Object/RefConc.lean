/-!
# C110: references taken and dropped at the same time

Any number of threads, of any processes, register objects, take and drop
references, pass references on, and look through the lists of objects, one
instruction on the shared count or one lock operation at a time.  The count is
the 32-bit word it is in the code, for both builds (`ARAX_REF_DEBUG`).

Simplifications: addresses are not reused (so that a use of freed memory shows
as `ub`); a destructor, and the freeing of the block, is one step, and the
references the object held on others pass to the destroying thread, which drops
them afterwards (in the code just before the block is freed: at that point
nobody else can reach the object); locks are sequentially consistent (C83 is
about processors that delay stores); the list is a `List` (C10 is about its
links); allocation succeeds.
-/
namespace Arax.RefConc

/-- 2^32, the number of values of `int`. (No code of its own.) -/
def W32 : Nat := 4294967296
/-- 2^31: from here on an `int` is negative. (No code of its own.) -/
def W31 : Nat := 2147483648
/-- 2^16. (No code of its own.) -/
def W16 : Nat := 65536

/-- An object: /repo/src/core/arax_object.h:40-48. -/
structure Ob where
  cnt : Nat          -- ref_count, an `int`, as a number below 2^32
  ty : Nat           -- type

/-- Who has a reference: a thread, or another object (a task has one on each of its buffers). Ghost. -/
inductive Who where
  | th (t : Nat)
  | ob (o : Nat)
  deriving DecidableEq

/-- Where a thread is. Lines of /repo/src/core/arax_object.c. -/
inductive Pc where
  | idle
  | regLock (o ty : Nat)                  -- 117: the object is set up
  | regAdd (o ty : Nat)                   -- 118
  | regUnlock (ty : Nat)                  -- 119
  | incAdd (o : Nat) (w : Option Nat)     -- 153, 157: the assertions have passed; `w`: the list whose lock is held
  | decLock (o : Nat)                     -- 177: the assertions have passed
  | decAdd (o ty : Nat)                   -- 180, 182
  | decDel (o ty : Nat)                   -- 184-192: the new count was 0
  | decUnlock (o ty : Nat) (last : Bool)  -- 193 or 205
  | kill (o : Nat)                        -- 195-203
  | walk (ty : Nat)                       -- between arax_object_list_lock and arax_object_list_unlock (248-258)
  | preAdd (o ty : Nat)                   -- 214, 216
  | preKill (o ty : Nat)                  -- 218-230: the new count was 0
  deriving DecidableEq

/-- Shared memory, and ghosts. /repo/src/core/arax_object.h:25-48. -/
structure St where
  next : Nat                     -- the next fresh address
  obj : Nat → Option Ob          -- the objects that are not freed
  list : Nat → List Nat          -- repo[ty].list
  lock : Nat → Option Nat        -- repo[ty].lock: the thread that has it
  pc : Nat → Pc
  refs : List (Who × Nat)        -- ghost: the references there are
  gone : List Nat                -- ghost: the objects destroyed, in order

/-- /repo/src/core/arax_object.c:60-69. -/
def init : St := { next := 0, obj := fun _ => none, list := fun _ => [], lock := fun _ => none, pc := fun _ => .idle, refs := [], gone := [] }

/-- The number of references to `o`. -/
def nrefs (s : St) (o : Nat) : Nat := s.refs.countP (fun r => r.2 == o)

/-- Outcome of a step: done, an assertion failed (the process ends), or freed memory was used. -/
inductive Res where
  | ok (s : St)
  | abort
  | ub

/-- Function update. (No code of its own.) -/
def upd {α : Type} (f : Nat → α) (i : Nat) (a : α) : Nat → α := fun j => if j = i then a else f j

/-- Model bookkeeping, no code of its own: thread `t` goes to `p`. -/
def St.go (s : St) (t : Nat) (p : Pc) : St := { s with pc := upd s.pc t p }

/-- `arax_object_refs`: arax_object.c:237-246; also 180, 186, 214. -/
def low (dbg : Bool) (c : Nat) : Nat := if dbg then c % W16 else c

/-- `__sync_add_and_fetch` of +1 (or +0x10001): arax_object.c:153, 157. -/
def up (dbg : Bool) (c : Nat) : Nat := (c + if dbg then W16 + 1 else 1) % W32

/-- `__sync_add_and_fetch` of -1 (or +0xffff): arax_object.c:180, 182, 214, 216. -/
def down (dbg : Bool) (c : Nat) : Nat := (c + if dbg then W16 - 1 else W32 - 1) % W32

/-- The assertion of arax_object_ref_inc: arax_object.c:152 (masked: never negative), 156. -/
def okInc (dbg : Bool) (c : Nat) : Bool := dbg || decide (c < W31)

/-- The assertion of arax_object_ref_dec: arax_object.c:171, 174. -/
def okDec (dbg : Bool) (c : Nat) : Bool := if dbg then decide (0 < c % W16) else decide (0 < c ∧ c < W31)

/-- The assertion at the end of arax_object_ref_dec_pre_locked: arax_object.c:232. -/
def okPre (dbg : Bool) (c : Nat) : Bool := dbg || decide (c < W31)

/-- The references of an object that is destroyed pass to the thread that destroys it (the destructors:
/repo/src/core/arax_task.c:89-103, arax_data.c:373-403, arax_vaccel.c:113-123, arax_accel.c:180-194). -/
def heir (t o : Nat) (r : Who × Nat) : Who × Nat := if r.1 = .ob o then (.th t, r.2) else r

/-- Destructor and free: arax_object.c:195-203, 221-229. -/
def St.destroy (s : St) (t o : Nat) : St :=
  { s with obj := upd s.obj o none, refs := s.refs.map (heir t o), gone := s.gone ++ [o] }

/-- What a thread can do. -/
inductive Ev where
  | new (ty : Nat)               -- arax_object_register
  | inc (o : Nat)                -- arax_object_ref_inc, of an object the thread has a reference to
  | dec (o : Nat)                -- arax_object_ref_dec, of such a reference
  | lockList (ty : Nat)          -- arax_object_list_lock
  | look (o : Nat)               -- read a field of an object of the list
  | incW (o : Nat)               -- arax_object_ref_inc of an object of the list, under its lock (/repo/src/arch/shm/impl.c:249-275)
  | decW (o : Nat)               -- arax_object_ref_dec_pre_locked (impl.c:294-303)
  | unlockList                   -- arax_object_list_unlock
  | give (o : Nat) (w : Who)     -- pass a reference to another thread, or store it in an object
  | take (o' o : Nat)            -- take back a reference stored in an object
  | go                           -- the next step of the call under way

/-- Reads and writes of the object: freed memory is `ub`. (No code of its own.) -/
def St.touch (s : St) (o : Nat) (k : Ob → Res) : Res := match s.obj o with | none => .ub | some x => k x

/-- Where a thread goes on after arax_object_ref_inc: /repo/src/core/arax_object.c:159 and the caller. -/
def back : Option Nat → Pc
  | none => .idle
  | some ty => .walk ty

/-- The next step of the call thread `t` is in; `none`: it is in no call, or waits for a lock. /repo/src/core/arax_object.c:98-235. -/
def go (dbg : Bool) (s : St) (t : Nat) : Option Res :=
  match s.pc t with
  | .idle => none
  | .regLock o ty => if s.lock ty = none then some (.ok ({ s with lock := upd s.lock ty (some t) }.go t (.regAdd o ty))) else none    -- 117
  | .regAdd o ty => some (s.touch o fun _ => .ok ({ s with list := upd s.list ty (s.list ty ++ [o]) }.go t (.regUnlock ty)))          -- 118
  | .regUnlock ty => some (.ok ({ s with lock := upd s.lock ty none }.go t .idle))                                                    -- 119
  | .incAdd o w => some (s.touch o fun x =>                                                                                           -- 153, 157
      .ok ({ s with obj := upd s.obj o (some { x with cnt := up dbg x.cnt }), refs := s.refs ++ [(Who.th t, o)] }.go t
        (back w)))
  | .decLock o => match s.obj o with                                                                                                  -- 177
      | none => some .ub
      | some x => if s.lock x.ty = none then some (.ok ({ s with lock := upd s.lock x.ty (some t) }.go t (.decAdd o x.ty))) else none
  | .decAdd o ty => some (s.touch o fun x =>                                                                                          -- 180, 182, 184
      .ok ({ s with obj := upd s.obj o (some { x with cnt := down dbg x.cnt }), refs := s.refs.erase (Who.th t, o) }.go t
        (if low dbg (down dbg x.cnt) = 0 then .decDel o ty else .decUnlock o ty false)))
  | .decDel o ty => some (s.touch o fun x =>                                                                                          -- 186-192
      .ok ((if low dbg x.cnt = 0 then { s with list := upd s.list x.ty ((s.list x.ty).erase o) } else s).go t (.decUnlock o ty true)))
  | .decUnlock o _ last => some (s.touch o fun x =>                                                                                   -- 193, 205
      .ok ({ s with lock := upd s.lock x.ty none }.go t (if last then .kill o else .idle)))
  | .kill o => some (s.touch o fun _ => .ok ((s.destroy t o).go t .idle))                                                             -- 195-203
  | .walk _ => none
  | .preAdd o ty => some (s.touch o fun x =>                                                                                          -- 214-218, 232
      if low dbg (down dbg x.cnt) = 0 then
        .ok ({ s with obj := upd s.obj o (some { x with cnt := down dbg x.cnt }), refs := s.refs.erase (Who.th t, o) }.go t (.preKill o ty))
      else if okPre dbg (down dbg x.cnt) then
        .ok ({ s with obj := upd s.obj o (some { x with cnt := down dbg x.cnt }), refs := s.refs.erase (Who.th t, o) }.go t (.walk ty))
      else .abort)
  | .preKill o ty => some (s.touch o fun x =>                                                                                         -- 220-229
      .ok (({ s with list := upd s.list x.ty ((s.list x.ty).erase o) }.destroy t o).go t (.walk ty)))

/-- A thread stores references only in objects it has (another) reference to. (No code of its own.) -/
def mayStore (s : St) (t o : Nat) : Who → Bool
  | .th _ => true
  | .ob o' => decide ((Who.th t, o') ∈ s.refs.erase (Who.th t, o))

/-- One step of thread `t`; `none`: the thread is not at that point, or has no such reference. /repo/src/core/arax_object.c:98-258. -/
def step (dbg : Bool) (s : St) (t : Nat) : Ev → Option Res
  | .new ty =>                                                                                                                        -- 103-116
    if s.pc t = .idle then
      some (.ok ({ s with next := s.next + 1, obj := upd s.obj s.next (some ⟨1, ty⟩), refs := s.refs ++ [(Who.th t, s.next)] }.go t (.regLock s.next ty)))
    else none
  | .inc o =>                                                                                                                         -- 147-156
    if s.pc t = .idle ∧ (Who.th t, o) ∈ s.refs then
      some (s.touch o fun x => if okInc dbg x.cnt then .ok (s.go t (.incAdd o none)) else .abort)
    else none
  | .dec o =>                                                                                                                         -- 165-175
    if s.pc t = .idle ∧ (Who.th t, o) ∈ s.refs then
      some (s.touch o fun x => if okDec dbg x.cnt then .ok (s.go t (.decLock o)) else .abort)
    else none
  | .lockList ty =>                                                                                                                   -- 248-253
    if s.pc t = .idle ∧ s.lock ty = none then some (.ok ({ s with lock := upd s.lock ty (some t) }.go t (.walk ty))) else none
  | .look o =>
    match s.pc t with
    | .walk ty => if o ∈ s.list ty then some (s.touch o fun _ => .ok s) else none
    | _ => none
  | .incW o =>                                                                                                                        -- 147-156
    match s.pc t with
    | .walk ty => if o ∈ s.list ty then some (s.touch o fun x => if okInc dbg x.cnt then .ok (s.go t (.incAdd o (some ty))) else .abort) else none
    | _ => none
  | .decW o =>                                                                                                                        -- 211
    match s.pc t with
    | .walk ty => if (Who.th t, o) ∈ s.refs ∧ (s.obj o).map (·.ty) = some ty then some (.ok (s.go t (.preAdd o ty))) else none
    | _ => none
  | .unlockList =>                                                                                                                    -- 255-258
    match s.pc t with
    | .walk ty => some (.ok ({ s with lock := upd s.lock ty none }.go t .idle))
    | _ => none
  | .give o w =>
    if s.pc t = .idle ∧ (Who.th t, o) ∈ s.refs ∧ mayStore s t o w then
      some (.ok { s with refs := s.refs.erase (Who.th t, o) ++ [(w, o)] })
    else none
  | .take o' o =>
    if s.pc t = .idle ∧ (Who.th t, o') ∈ s.refs ∧ (Who.ob o', o) ∈ s.refs then
      some (.ok { s with refs := s.refs.erase (Who.ob o', o) ++ [(Who.th t, o)] })
    else none
  | .go => go dbg s t

/-- How many references to one object the build can count. -/
def cap (dbg : Bool) : Nat := if dbg then W16 else W31

/-- What can have happened, while no object has `cap` references or more. -/
inductive Reach (dbg : Bool) : St → Prop
  | init : Reach dbg init
  | step {s s' : St} {t : Nat} {e : Ev} : Reach dbg s → step dbg s t e = some (.ok s') → (∀ o, nrefs s' o < cap dbg) → Reach dbg s'

end Arax.RefConc
