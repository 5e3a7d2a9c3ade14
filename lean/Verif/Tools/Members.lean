/-!
# C116: the tools leave the segment as they found it

vtop, vdf, arax_plot and araxgrind join the segment like an application. Modelled: the calls of `arax_init`, `arax_exit` and `arax_controller_init_*` that each tool makes for any command line and use, what they do to the counts of
threads and processes, and any other processes that come, go, become ready and delete the name of the segment in between (C43 has the details of joining and leaving).

Simplified: joining and leaving are one step; the tool ends by itself (killed processes: C109); a call too many is C93.
-/
namespace Arax.Members

/-- Texts. `char *`. -/
abbrev Text := List Char

/-- A text of the program. (/repo/vtop/vtop.cpp:51-54.) -/
def S (s : String) : Text := s.toList

/-- What a tool does with the segment. -/
inductive Op where
  /-- `_arax_init` up to the label `GOOD` (/repo/src/arch/shm/impl.c:44-114) -/
  | join
  /-- the wait for the controller (/repo/src/arch/shm/impl.c:116-121) -/
  | await
  /-- `arax_controller_init_done` (/repo/src/arch/shm/impl.c:143-147) -/
  | announce
  /-- `arax_exit` (/repo/src/arch/shm/impl.c:156-191) -/
  | leave
deriving DecidableEq, Repr

/-- What others do. -/
inductive Env where
  /-- a process joins the segment that has the name -/
  | join
  /-- a process leaves segment `g` -/
  | leave (g : Nat)
  /-- a controller of segment `g` says that it is ready -/
  | ready (g : Nat)
  /-- the name is deleted: `arax_clean` of a starting controller (/repo/controller/src/Core/arax_controller.cpp:142-145) -/
  | clean
deriving DecidableEq, Repr

/-- Segments are numbered; `cur` is the one that has the name or will have it when the next process joins. `others g`, `mine g`: how many times segment `g` counts other processes and this tool (`processes`, /repo/include/arax_pipe.h).
`threads`, `seg`: `arax_state` of the tool (/repo/src/arch/shm/impl.c). -/
structure St where
  rest : List Op
  others : Nat → Nat
  mine : Nat → Nat
  ready : Nat → Bool
  cur : Nat
  threads : Nat
  seg : Nat

/-- Sets one place. (No code of its own.) -/
def upd {α : Type} (f : Nat → α) (i : Nat) (v : α) : Nat → α := fun j => if j = i then v else f j

/-- A step of the tool. A call of `arax_exit` too many is not modelled here. (/repo/src/arch/shm/impl.c:33-191.) -/
def toolStep (s : St) : St :=
  match s.rest with
  | [] => s
  | .join :: r =>
    if s.threads = 0 then { s with rest := r, threads := 1, seg := s.cur, mine := upd s.mine s.cur (s.mine s.cur + 1) }      -- 44, 49-114
    else { s with rest := r, threads := s.threads + 1 }                                                                        -- 44-46
  | .await :: r => if s.ready s.seg then { s with rest := r } else s                                                             -- 118
  | .announce :: r => { s with rest := r, ready := upd s.ready s.seg true }                                                      -- 145
  | .leave :: r =>
    if s.threads = 0 then { s with rest := r }
    else if s.threads = 1 then                                                                                                   -- 161
      { s with rest := r, threads := 0, mine := upd s.mine s.seg (s.mine s.seg - 1),                                             -- 162
               cur := if s.others s.seg + (s.mine s.seg - 1) = 0 then s.cur + 1 else s.cur }                                     -- 181-182
    else { s with rest := r, threads := s.threads - 1 }

/-- A step of others. (No code of its own: other processes of the same library, /repo/src/arch/shm/impl.c:33-207.) -/
def envStep (s : St) : Env → St
  | .join => { s with others := upd s.others s.cur (s.others s.cur + 1) }
  | .leave g => if s.others g = 0 then s else
      { s with others := upd s.others g (s.others g - 1), cur := if s.others g - 1 + s.mine g = 0 then s.cur + 1 else s.cur }
  | .ready g => { s with ready := upd s.ready g true }
  | .clean => { s with cur := s.cur + 1 }

/-- What can happen; `none` is a step of the tool. (No code of its own.) -/
def step (s : St) : Option Env → St
  | none => toolStep s
  | some e => envStep s e

/-- A tool that is about to do `ops`, in a system with any other processes. (No code of its own.) -/
def start (ops : List Op) (others : Nat → Nat) (ready : Nat → Bool) (cur : Nat) : St := ⟨ops, others, fun _ => 0, ready, cur, 0, 0⟩

/-- A history. (No code of its own.) -/
def run (s : St) (evs : List (Option Env)) : St := evs.foldl step s

/-! ### The tools -/

/-- `arax_init` (/repo/src/arch/shm/impl.c:132-136). -/
def init : List Op := [.join, .await]

/-- Keys that vtop knows; others, the mouse and a change of the size of the terminal do not concern the segment. (/repo/vtop/MainView.cpp:131-163.) -/
inductive Key where
  | quit | reattach | other
deriving DecidableEq, Repr

/-- What vtop does with the segment for the keys pressed: `Cleanup`, `Setup` (/repo/vtop/MainView.cpp:24, 83, 96, 104, 135-145). -/
def keyOps : List Key → List Op
  | [] => []
  | .quit :: _ => [.leave]
  | .reattach :: r => .leave :: init ++ keyOps r
  | .other :: r => keyOps r

/-- `main` of vtop (/repo/vtop/vtop.cpp:15-20, 30-35, 45-64). -/
def vtop (argv : List Text) (keys : List Key) : List Op :=
  (if S "-i" ∈ argv ∨ S "--ignore" ∈ argv then [.join, .announce] else []) ++
  (if S "-h" ∈ argv ∨ S "--help" ∈ argv then [] else init ++ keyOps keys)

/-- `main` of vdf, from `Server::main` on (/repo/vdf/vdf.cpp:52, 91). -/
def vdf : List Op := init ++ [.leave]

/-- `main` of arax_plot; `samples`: some were recorded (/repo/arax_plot/main.cpp:22-27, 82-85, 137). -/
def plot (argc : Nat) (samples : Bool) : List Op := if argc = 2 then init ++ (if samples then [.leave] else []) else []

/-- How often araxgrind's look at a pointer calls `arax_ptr_valid`, which calls `arax_init`: once (`ptrType`), and if it points into the segment at no object, in `arax_data_ref_offset`, too, and, if the word before it is not null, in `arax_data_ref`.
(/repo/araxgrind/main.cpp:215-236; /repo/src/core/arax_ptr.c:6; /repo/src/core/arax_data.c:281-300.) -/
inductive Ptr where
  | outside | object | ownerless | other
deriving DecidableEq, Repr
/-- See `Ptr`. (/repo/araxgrind/main.cpp:215-236.) -/
def Ptr.looks : Ptr → Nat
  | .outside | .object => 1
  | .ownerless => 2
  | .other => 3

/-- `main` of araxgrind with valid arguments, without refresh (/repo/araxgrind/main.cpp:260-302). -/
def grind (help list : Bool) (ptrs : List Ptr) : List Op :=
  if help then [] else if list then init else init ++ (ptrs.flatMap fun p => (List.replicate p.looks init).flatten) ++ [.leave]

/-! ### Specification -/

/-- How many processes segment `g` counts. -/
def St.users (s : St) (g : Nat) : Nat := s.others g + s.mine g

/-- How many more joins than leaves. -/
def net : List Op → Int
  | [] => 0
  | .join :: r => net r + 1
  | .leave :: r => net r - 1
  | _ :: r => net r

/-- No leave without a join before it, when `n` joins were made before. -/
def Fine (n : Nat) : List Op → Prop
  | [] => True
  | .join :: r => Fine (n + 1) r
  | .leave :: r => 0 < n ∧ Fine (n - 1) r
  | _ :: r => Fine n r

/-! ### Proofs -/

theorem upd_same {α : Type} (f : Nat → α) (i : Nat) (v : α) : upd f i v i = v := by simp [upd]
theorem upd_ne {α : Type} (f : Nat → α) {i j : Nat} (v : α) (h : j ≠ i) : upd f i v j = f j := by simp [upd, h]

/-- What holds all the time; `d` is what the whole program does to the number of threads. -/
structure Inv (d : Int) (s : St) : Prop where
  fine : Fine s.threads s.rest
  bal : (s.threads : Int) + net s.rest = d
  mine : ∀ g, s.mine g = if 0 < s.threads ∧ g = s.seg then 1 else 0

theorem inv_tool {d : Int} {s : St} (h : Inv d s) : Inv d (toolStep s) := by
  have hf := h.fine
  have hb := h.bal
  cases hr : s.rest with
  | nil => have e : toolStep s = s := by simp [toolStep, hr]
           rw [e]; exact h
  | cons o r =>
    rw [hr] at hf hb
    cases o with
    | join =>
      simp only [Fine, net] at hf hb
      by_cases h0 : s.threads = 0
      · have e : toolStep s = { s with rest := r, threads := 1, seg := s.cur, mine := upd s.mine s.cur (s.mine s.cur + 1) } := by simp [toolStep, hr, h0]
        rw [e]
        rw [h0] at hf hb
        refine ⟨hf, by dsimp only; omega, fun g => ?_⟩
        have hm := h.mine
        simp only [h0, Nat.lt_irrefl, false_and, if_false] at hm
        by_cases hg : g = s.cur
        · subst hg; simp [upd, hm]
        · simp [upd, hg, hm]
      · have e : toolStep s = { s with rest := r, threads := s.threads + 1 } := by simp [toolStep, hr, h0]
        rw [e]
        refine ⟨hf, by dsimp only; omega, fun g => ?_⟩
        have := h.mine g
        rw [this]
        simp [Nat.pos_of_ne_zero h0]
    | await =>
      simp only [Fine, net] at hf hb
      by_cases hy : s.ready s.seg = true
      · have e : toolStep s = { s with rest := r } := by simp [toolStep, hr, hy]
        rw [e]; exact ⟨hf, hb, h.mine⟩
      · have e : toolStep s = s := by simp [toolStep, hr, hy]
        rw [e]; exact h
    | announce =>
      simp only [Fine, net] at hf hb
      have e : toolStep s = { s with rest := r, ready := upd s.ready s.seg true } := by simp [toolStep, hr]
      rw [e]; exact ⟨hf, hb, h.mine⟩
    | leave =>
      simp only [Fine, net] at hf hb
      have h0 : s.threads ≠ 0 := by omega
      by_cases h1 : s.threads = 1
      · have e : toolStep s = { s with rest := r, threads := 0, mine := upd s.mine s.seg (s.mine s.seg - 1), cur := if s.others s.seg + (s.mine s.seg - 1) = 0 then s.cur + 1 else s.cur } := by
          simp [toolStep, hr, h1]
        rw [e]
        rw [h1] at hf hb
        refine ⟨hf.2, by dsimp only; omega, fun g => ?_⟩
        have hm := h.mine g
        rw [h1] at hm
        by_cases hg : g = s.seg
        · subst hg; simp only [Nat.zero_lt_one, true_and, if_true] at hm; simp [upd, hm]
        · simp only [hg, and_false, if_false] at hm; simp [upd, hg, hm]
      · have e : toolStep s = { s with rest := r, threads := s.threads - 1 } := by simp [toolStep, hr, h1, h0]
        rw [e]
        refine ⟨hf.2, by dsimp only; omega, fun g => ?_⟩
        rw [h.mine g]
        have a : 0 < s.threads := by omega
        have b : 0 < s.threads - 1 := by omega
        simp [a, b]

theorem inv_env {d : Int} {s : St} (h : Inv d s) (e : Env) : Inv d (envStep s e) := by
  cases e with
  | leave g =>
    simp only [envStep]
    split
    · exact h
    · exact ⟨h.fine, h.bal, h.mine⟩
  | _ => exact ⟨h.fine, h.bal, h.mine⟩

theorem inv_run {d : Int} (evs : List (Option Env)) : ∀ {s : St}, Inv d s → Inv d (run s evs) := by
  induction evs with
  | nil => intro s h; exact h
  | cons e es ih =>
    intro s h
    refine ih (s := step s e) ?_
    cases e with
    | none => exact inv_tool h
    | some e => exact inv_env h e

theorem inv_start {ops : List Op} (others : Nat → Nat) (ready : Nat → Bool) (cur : Nat) (h : Fine 0 ops) : Inv (net ops) (start ops others ready cur) :=
  ⟨h, by simp [start], fun g => by simp [start]⟩

theorem fine_append : ∀ (a b : List Op) (n : Nat), Fine n a → (∀ m : Nat, (m : Int) = n + net a → Fine m b) → Fine n (a ++ b)
  | [], b, n, _, h => h n (by simp [net])
  | .join :: r, b, n, ha, h => fine_append r b (n + 1) ha (fun m hm => h m (by simp only [net]; omega))
  | .await :: r, b, n, ha, h => fine_append r b n ha h
  | .announce :: r, b, n, ha, h => fine_append r b n ha h
  | .leave :: r, b, n, ha, h => by
    simp only [Fine] at ha
    exact ⟨ha.1, fine_append r b (n - 1) ha.2 (fun m hm => h m (by simp only [net]; omega))⟩

theorem net_append : ∀ a b : List Op, net (a ++ b) = net a + net b
  | [], b => by simp [net]
  | .join :: r, b => by simp only [List.cons_append, net, net_append r b]; omega
  | .await :: r, b => by simp only [List.cons_append, net, net_append r b]
  | .announce :: r, b => by simp only [List.cons_append, net, net_append r b]
  | .leave :: r, b => by simp only [List.cons_append, net, net_append r b]; omega

/-- Keys, with at least one join before them; `quit` is among them or not. -/
theorem keys_fine : ∀ (ks : List Key) (n : Nat), 0 < n → Fine n (keyOps ks)
  | [], _, _ => trivial
  | .quit :: _, _, h => ⟨h, trivial⟩
  | .reattach :: r, n, h => ⟨h, by
      show Fine (n - 1 + 1) (keyOps r)
      exact keys_fine r _ (by omega)⟩
  | .other :: r, n, h => keys_fine r n h

theorem keys_net : ∀ ks : List Key, net (keyOps ks) = if .quit ∈ ks then -1 else 0
  | [] => by simp [keyOps, net]
  | .quit :: _ => by simp [keyOps, net]
  | .reattach :: r => by simp [keyOps, init, net, keys_net r]
  | .other :: r => by simp [keyOps, keys_net r]

theorem looks_net (ps : List Ptr) : net (ps.flatMap fun p => (List.replicate p.looks init).flatten) = ((ps.map Ptr.looks).sum : Nat) := by
  induction ps with
  | nil => rfl
  | cons p ps ih =>
    rw [List.flatMap_cons, net_append, ih]
    have : net (List.replicate p.looks init).flatten = (p.looks : Int) := by cases p <;> rfl
    simp [this]

theorem looks_fine (ps : List Ptr) : ∀ n, Fine n (ps.flatMap fun p => (List.replicate p.looks init).flatten) := by
  induction ps with
  | nil => intro n; trivial
  | cons p ps ih =>
    intro n
    rw [List.flatMap_cons]
    refine fine_append _ _ n ?_ (fun m _ => ih m)
    cases p <;> trivial

theorem vtop_fine (argv : List Text) (keys : List Key) : Fine 0 (vtop argv keys) := by
  unfold vtop
  split <;> split
  · trivial
  · exact keys_fine keys 2 (by omega)
  · trivial
  · exact keys_fine keys 1 (by omega)

theorem grind_fine (help list : Bool) (ptrs : List Ptr) : Fine 0 (grind help list ptrs) := by
  unfold grind
  split
  · trivial
  · split
    · trivial
    · rw [List.append_assoc]
      refine fine_append _ _ 0 (by trivial) (fun m hm => ?_)
      refine fine_append _ _ m (looks_fine ptrs m) (fun k hk => ⟨?_, trivial⟩)
      rw [looks_net] at hk
      simp [init, net] at hm
      omega

/-! ### The property -/

/-- A use of a tool: which tool, how. -/
inductive Use where
  | vtop (argv : List Text) (keys : List Key)
  | vdf
  | plot (argc : Nat) (samples : Bool)
  | grind (help list : Bool) (ptrs : List Ptr)

/-- See `vtop`, `vdf`, `plot`, `grind`. (No code of its own.) -/
def Use.ops : Use → List Op
  | .vtop a k => Members.vtop a k
  | .vdf => Members.vdf
  | .plot a s => Members.plot a s
  | .grind h l p => Members.grind h l p

theorem use_fine (u : Use) : Fine 0 u.ops := by
  cases u with
  | vtop a k => exact vtop_fine a k
  | vdf => exact ⟨by omega, trivial⟩
  | plot a s =>
    show Fine 0 (plot a s)
    unfold plot
    split
    · cases s
      · trivial
      · exact ⟨by omega, trivial⟩
    · trivial
  | grind h l p => exact grind_fine h l p

/-- **C116 (counted once).** At any time of any use of any of the tools, whatever others do, at most one segment counts the tool, and that one counts it once. -/
theorem C116_once (u : Use) (others : Nat → Nat) (ready : Nat → Bool) (cur : Nat) (evs : List (Option Env)) :
    (∀ g, (run (start u.ops others ready cur) evs).mine g ≤ 1) ∧
    ∀ g g', (run (start u.ops others ready cur) evs).mine g = 1 → (run (start u.ops others ready cur) evs).mine g' = 1 → g = g' := by
  have h := (inv_run evs (inv_start others ready cur (use_fine u))).mine
  refine ⟨fun g => ?_, fun g g' h1 h2 => ?_⟩
  · rw [h g]; split <;> omega
  · rw [h g] at h1; rw [h g'] at h2
    split at h1
    · split at h2
      · rename_i a b; rw [a.2, b.2]
      · omega
    · omega

/-- The uses after which a tool has left: vtop not told to ignore the controller (`-i`, `--ignore`), and quit by its key or asked for help; vdf; arax_plot called wrongly or with samples recorded; araxgrind without list and without pointers, or asked for help. -/
def Clean : Use → Prop
  | .vtop argv keys => S "-i" ∉ argv ∧ S "--ignore" ∉ argv ∧ (.quit ∈ keys ∨ S "-h" ∈ argv ∨ S "--help" ∈ argv)
  | .vdf => True
  | .plot argc samples => argc ≠ 2 ∨ samples = true
  | .grind help list ptrs => help = true ∨ (list = false ∧ ptrs = [])

theorem clean_net {u : Use} (h : Clean u) : net u.ops = 0 := by
  cases u with
  | vtop a k =>
    obtain ⟨h1, h2, h3⟩ := h
    show net (Members.vtop a k) = 0
    unfold Members.vtop
    rw [if_neg (by simp [h1, h2])]
    split
    · rfl
    · rename_i hn
      rw [List.nil_append, net_append, keys_net, if_pos]
      · rfl
      · rcases h3 with h | h | h
        · exact h
        · exact absurd (Or.inl h) hn
        · exact absurd (Or.inr h) hn
  | vdf => rfl
  | plot a s =>
    show net (plot a s) = 0
    unfold plot
    split
    · rename_i ha
      rcases h with h | h
      · exact absurd ha h
      · subst h; rfl
    · rfl
  | grind hp l p =>
    show net (grind hp l p) = 0
    unfold grind
    rcases h with h | h
    · rw [h]; rfl
    · split
      · rfl
      · rw [h.1, h.2]; rfl

/-- **C116 (left).** After these uses, whatever others did meanwhile, no segment counts the tool any more: the number of processes of every segment is that of the others.
Missing: the other uses (`C116_violated_ignore`, `C116_violated_list`, `C116_violated_pointers`, `C116_violated_nothing`). -/
theorem C116_left_partial (u : Use) (hu : Clean u) (others : Nat → Nat) (ready : Nat → Bool) (cur : Nat) (evs : List (Option Env))
    (hd : (run (start u.ops others ready cur) evs).rest = []) (g : Nat) :
    (run (start u.ops others ready cur) evs).users g = (run (start u.ops others ready cur) evs).others g := by
  have h := inv_run evs (inv_start others ready cur (use_fine u))
  have hb := h.bal
  rw [hd, clean_net hu] at hb
  have h0 : (run (start u.ops others ready cur) evs).threads = 0 := by simp only [net] at hb; omega
  simp only [St.users]
  rw [h.mine g, h0]
  simp

/-- Non-vacuity: vtop, with one re-attachment in the middle of which the old segment is left by its last other user; and the tool was counted meanwhile. -/
example : Clean (.vtop [S "vtop"] [.other, .reattach, .quit]) := ⟨by decide, by decide, Or.inl (by decide)⟩
example :
    let s := run (start (vtop [S "vtop"] [.other, .reattach, .quit]) (fun g => if g = 0 then 1 else 0) (fun _ => true) 0)
    (s [none, none]).users 0 = 2 ∧ (s [none, none, some (.leave 0), none, none, none]).users 1 = 1 ∧
    (s [none, none, some (.leave 0), none, none, none, none]).rest = [] ∧ (s [none, none, some (.leave 0), none, none, none, none]).users 1 = 0 := by decide

/-- If the tool's uses end with more joins than leaves, the segment it is in counts it from then on, whatever others do: nobody is the last to leave, and the segment stays. -/
theorem stays {ops : List Op} (hf : Fine 0 ops) (hn : 0 < net ops) (others : Nat → Nat) (ready : Nat → Bool) (cur : Nat) (evs : List (Option Env))
    (hd : (run (start ops others ready cur) evs).rest = []) (more : List (Option Env)) :
    1 ≤ (run (start ops others ready cur) (evs ++ more)).users (run (start ops others ready cur) evs).seg := by
  have h := inv_run evs (inv_start others ready cur hf)
  have ht : 0 < (run (start ops others ready cur) evs).threads := by
    have := h.bal; rw [hd] at this; simp only [net] at this; omega
  have hm := h.mine (run (start ops others ready cur) evs).seg
  rw [if_pos ⟨ht, rfl⟩] at hm
  have key : ∀ (l : List (Option Env)) (s : St), s.rest = [] → (run s l).mine = s.mine := by
    intro l
    induction l with
    | nil => intro s _; rfl
    | cons e es ih =>
      intro s hs
      have h1 : (step s e).rest = [] ∧ (step s e).mine = s.mine := by
        cases e with
        | none => simp [step, toolStep, hs]
        | some e =>
          cases e with
          | leave g => simp only [step, envStep]; split <;> exact ⟨hs, rfl⟩
          | _ => exact ⟨hs, rfl⟩
      show (run (step s e) es).mine = _
      rw [ih _ h1.1, h1.2]
  have e : run (start ops others ready cur) (evs ++ more) = run (run (start ops others ready cur) evs) more := by simp [run, List.foldl_append]
  rw [e]
  simp only [St.users]
  rw [key more _ hd, hm]
  omega

/-- **C116 is violated: `vtop -i`** joins twice and leaves once (asked for help as well: joins once and never leaves). In whatever way it is used and ended, a segment counts it for ever. -/
theorem C116_violated_ignore (argv : List Text) (keys : List Key) (hi : S "-i" ∈ argv) (others : Nat → Nat) (ready : Nat → Bool) (cur : Nat) (evs : List (Option Env))
    (hd : (run (start (vtop argv keys) others ready cur) evs).rest = []) (more : List (Option Env)) :
    1 ≤ (run (start (vtop argv keys) others ready cur) (evs ++ more)).users (run (start (vtop argv keys) others ready cur) evs).seg := by
  refine stays (vtop_fine argv keys) ?_ others ready cur evs hd more
  unfold vtop
  rw [if_pos (Or.inl hi), net_append]
  split
  · simp [net]
  · rw [net_append, keys_net]
    split <;> simp [net, init]

/-- Non-vacuity: such a run. -/
example : (run (start (vtop [S "vtop", S "-i"] [.quit]) (fun _ => 0) (fun _ => false) 0) [none, none, none, none, none]).rest = [] := by decide

/-- `araxgrind` asked for a list never leaves. -/
theorem C116_violated_list (ptrs : List Ptr) (others : Nat → Nat) (ready : Nat → Bool) (cur : Nat) (evs : List (Option Env))
    (hd : (run (start (grind false true ptrs) others ready cur) evs).rest = []) (more : List (Option Env)) :
    1 ≤ (run (start (grind false true ptrs) others ready cur) (evs ++ more)).users (run (start (grind false true ptrs) others ready cur) evs).seg :=
  stays (grind_fine false true ptrs) (by simp [grind, init, net]) others ready cur evs hd more

/-- `araxgrind` asked for any pointer never leaves: the check of the pointer joins. -/
theorem C116_violated_pointers (p : Ptr) (ptrs : List Ptr) (others : Nat → Nat) (ready : Nat → Bool) (cur : Nat) (evs : List (Option Env))
    (hd : (run (start (grind false false (p :: ptrs)) others ready cur) evs).rest = []) (more : List (Option Env)) :
    1 ≤ (run (start (grind false false (p :: ptrs)) others ready cur) (evs ++ more)).users (run (start (grind false false (p :: ptrs)) others ready cur) evs).seg := by
  refine stays (grind_fine false false (p :: ptrs)) ?_ others ready cur evs hd more
  have e : grind false false (p :: ptrs) = init ++ ((p :: ptrs).flatMap fun p => (List.replicate p.looks init).flatten) ++ [.leave] := by simp [grind]
  have hp : 1 ≤ p.looks := by cases p <;> decide
  rw [e, net_append, net_append, looks_net]
  simp [init, net]
  omega

/-- `arax_plot` that recorded nothing (interrupted before the first virtual accelerator) never leaves. -/
theorem C116_violated_nothing (others : Nat → Nat) (ready : Nat → Bool) (cur : Nat) (evs : List (Option Env))
    (hd : (run (start (plot 2 false) others ready cur) evs).rest = []) (more : List (Option Env)) :
    1 ≤ (run (start (plot 2 false) others ready cur) (evs ++ more)).users (run (start (plot 2 false) others ready cur) evs).seg :=
  stays (by trivial) (by simp [plot, init, net]) others ready cur evs hd more

/-- The segment a tool with two joins is in does not change as long as it does not leave twice. -/
theorem reattach_keeps {s : St} (h : 2 ≤ s.threads) {r : List Op} (hr : s.rest = .leave :: .join :: r) (e1 e2 : List (Option Env)) (h1 : none ∉ e1) (h2 : none ∉ e2) :
    (run s (e1 ++ [none] ++ e2 ++ [none])).seg = s.seg ∧ (run s (e1 ++ [none] ++ e2 ++ [none])).threads = s.threads ∧ (run s (e1 ++ [none] ++ e2 ++ [none])).rest = r := by
  have henv : ∀ (l : List (Option Env)) (s : St), none ∉ l → (run s l).seg = s.seg ∧ (run s l).threads = s.threads ∧ (run s l).rest = s.rest := by
    intro l
    induction l with
    | nil => intro s _; exact ⟨rfl, rfl, rfl⟩
    | cons e es ih =>
      intro s hs
      cases e with
      | none => exact absurd List.mem_cons_self hs
      | some e =>
        have := ih (envStep s e) (fun hc => hs (List.mem_cons_of_mem _ hc))
        have he : (envStep s e).seg = s.seg ∧ (envStep s e).threads = s.threads ∧ (envStep s e).rest = s.rest := by
          cases e with
          | leave g => simp only [envStep]; split <;> exact ⟨rfl, rfl, rfl⟩
          | _ => exact ⟨rfl, rfl, rfl⟩
        show (run (envStep s e) es).seg = _ ∧ _
        rw [he.1, he.2.1, he.2.2] at this
        exact this
  have happ : ∀ (a b : List (Option Env)) (s : St), run s (a ++ b) = run (run s a) b := fun a b s => by simp [run, List.foldl_append]
  have hone : ∀ s : St, run s [none] = toolStep s := fun s => rfl
  rw [happ, happ, happ, hone, hone]
  obtain ⟨a1, a2, a3⟩ := henv e1 s h1
  generalize run s e1 = s1 at a1 a2 a3
  rw [hr] at a3
  have t1 : toolStep s1 = { s1 with rest := .join :: r, threads := s1.threads - 1 } := by
    have n0 : s1.threads ≠ 0 := by omega
    have n1 : s1.threads ≠ 1 := by omega
    simp only [toolStep, a3]
    rw [if_neg n0, if_neg n1]
  rw [t1]
  obtain ⟨b1, b2, b3⟩ := henv e2 { s1 with rest := .join :: r, threads := s1.threads - 1 } h2
  generalize run { s1 with rest := .join :: r, threads := s1.threads - 1 } e2 = s2 at b1 b2 b3
  have t2 : toolStep s2 = { s2 with rest := r, threads := s2.threads + 1 } := by
    have : s2.threads ≠ 0 := by rw [b2]; show s1.threads - 1 ≠ 0; omega
    simp only [toolStep, b3]
    rw [if_neg this]
  rw [t2]
  refine ⟨by show s2.seg = _; rw [b1]; exact a1, ?_, rfl⟩
  show s2.threads + 1 = _
  rw [b2]
  show s1.threads - 1 + 1 = _
  omega

/-- Others do not change what the tool is in. -/
theorem env_keeps : ∀ (l : List (Option Env)) (s : St), none ∉ l → (run s l).threads = s.threads ∧ (run s l).rest = s.rest
  | [], _, _ => ⟨rfl, rfl⟩
  | none :: _, _, h => absurd List.mem_cons_self h
  | some e :: es, s, h => by
    have he : (envStep s e).threads = s.threads ∧ (envStep s e).rest = s.rest := by
      cases e with
      | leave g => simp only [envStep]; split <;> exact ⟨rfl, rfl⟩
      | _ => exact ⟨rfl, rfl⟩
    have := env_keeps es (envStep s e) (fun hc => h (List.mem_cons_of_mem _ hc))
    rw [he.1, he.2] at this
    exact this

/-- **Re-attach.** Without `-i`, vtop's (R), whatever others do in between, takes it to the segment that has the name at that moment, which counts it from then on. -/
theorem C116_reattach (keys : List Key) (others : Nat → Nat) (ready : Nat → Bool) (cur : Nat) (evs mid : List (Option Env)) (r : List Op) (hm : none ∉ mid)
    (ht : (run (start (vtop [S "vtop"] keys) others ready cur) evs).threads = 1)
    (hr : (run (start (vtop [S "vtop"] keys) others ready cur) evs).rest = .leave :: .join :: r) :
    let now := run (start (vtop [S "vtop"] keys) others ready cur) (evs ++ [none] ++ mid)
    let s' := run (start (vtop [S "vtop"] keys) others ready cur) (evs ++ [none] ++ mid ++ [none])
    (∀ g, now.mine g = 0) ∧ s'.seg = now.cur ∧ s'.mine now.cur = 1 ∧ s'.rest = r := by
  intro now s'
  have hi := inv_run (evs ++ [none] ++ mid) (inv_start others ready cur (vtop_fine [S "vtop"] keys))
  have happ : ∀ (a b : List (Option Env)) (s : St), run s (a ++ b) = run (run s a) b := fun a b s => by simp [run, List.foldl_append]
  have e1 : now = run (toolStep (run (start (vtop [S "vtop"] keys) others ready cur) evs)) mid := by
    show run _ (evs ++ [none] ++ mid) = _
    rw [happ, happ]; rfl
  have e2 : s' = toolStep now := by
    show run _ (evs ++ [none] ++ mid ++ [none]) = _
    rw [happ]; rfl
  generalize hs0 : run (start (vtop [S "vtop"] keys) others ready cur) evs = s0 at ht hr e1
  have t0 : (toolStep s0).threads = 0 ∧ (toolStep s0).rest = .join :: r := by simp [toolStep, hr, ht]
  have k := env_keeps mid (toolStep s0) hm
  rw [← e1, t0.1, t0.2] at k
  have hz : ∀ g, now.mine g = 0 := fun g => by
    have := hi.mine g
    have k1 : (run (start (vtop [S "vtop"] keys) others ready cur) (evs ++ [none] ++ mid)).threads = 0 := k.1
    rw [k1] at this
    simp only [Nat.lt_irrefl, false_and, if_false] at this
    exact this
  refine ⟨hz, ?_, ?_, ?_⟩
  · rw [e2]; simp [toolStep, k.1, k.2]
  · rw [e2]; simp [toolStep, k.1, k.2, upd, hz]
  · rw [e2]; simp [toolStep, k.1, k.2]

/-- Non-vacuity: the segment is deleted and a new one made between leaving and joining. -/
example :
    let s := start (vtop [S "vtop"] [.reattach, .quit]) (fun _ => 0) (fun _ => true) 0
    (run s [none, none]).threads = 1 ∧ (run s [none, none]).rest = .leave :: .join :: [.await, .leave] ∧
    (run s [none, none, none, some .join, some .clean, some .join, none]).seg = 2 := by decide

/-- **C116 is violated: (R) of `vtop -i`** does not re-attach: in between others may delete the segment and start a new one, vtop goes on with the old one. -/
theorem C116_violated_reattach : ∃ evs : List (Option Env),
    (run (start (vtop [S "vtop", S "-i"] [.reattach, .quit]) (fun _ => 0) (fun _ => false) 0) evs).rest = [.leave] ∧
    (run (start (vtop [S "vtop", S "-i"] [.reattach, .quit]) (fun _ => 0) (fun _ => false) 0) evs).seg = 0 ∧
    (run (start (vtop [S "vtop", S "-i"] [.reattach, .quit]) (fun _ => 0) (fun _ => false) 0) evs).cur = 1 ∧
    (run (start (vtop [S "vtop", S "-i"] [.reattach, .quit]) (fun _ => 0) (fun _ => false) 0) evs).others 1 = 1 :=
  ⟨[none, none, none, none, some .clean, some .join, none, none, none], by decide, by decide, by decide, by decide⟩

end Arax.Members
