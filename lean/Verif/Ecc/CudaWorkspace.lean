import Mathlib.Data.List.Basic
import Mathlib.Logic.Function.Basic
import Mathlib.Tactic.Common

/-! Model of the device memory of the GPU code for SM2 (yacl/crypto/ecc/cuda/kernels/sm2_kernels.cu L85-323, L2574-2612, and
yacl/crypto/ecc/cuda/cuda_sm2_group.cc L176-263): the buffers each thread keeps, the table of the generator, the stream, and the count
of the groups that use them.  Every CUDA call that may fail takes its outcome from the operation.  Simplifications: one operation runs
at a time (an unfinished batch call is treated in `C152_in_flight`), the contents of the buffers are not here (see CudaKernel), and
threads and groups are numbered and never renumbered. -/

namespace Yacl.Cuda.Mem

/-- A buffer of a workspace: its pointer and its capacity in elements (sm2_kernels.cu L109-128). -/
structure Slot where
  ptr : Option ℕ := none
  cap : ℕ := 0
deriving DecidableEq

/-- Number of buffers of a workspace (L109-128): points, points2, scalars, scalars2, results, digests, error. -/
def fields : ℕ := 7

/-- Bytes of an element of each buffer: points 64, scalars 32, digest bytes 1, the error word 4 (L109-128). -/
def elem : ℕ → ℕ
  | 0 => 64 | 1 => 64 | 2 => 32 | 3 => 32 | 4 => 64 | 5 => 1 | _ => 4

/-- Bytes of the generator table: 64 windows of 16 points of 64 bytes (precompute.cuh L24-28, sm2_kernels.cu L2586). -/
def tableBytes : ℕ := 64 * 16 * 64

/-- The device and the state of the process (L89-100, L171-180). -/
structure State where
  /-- The size of each live device block. -/
  live : ℕ → Option ℕ := fun _ => none
  /-- The next block the device hands out. -/
  next : ℕ := 0
  /-- A block was freed that was not live. -/
  fault : Bool := false
  /-- `tl_workspace` of each thread. -/
  slot : ℕ → ℕ → Slot := fun _ _ => {}
  /-- `tl_workspace_registered`. -/
  registered : ℕ → Bool := fun _ => false
  /-- `workspace_cleanups`: the thread whose workspace each callback resets. -/
  cleanups : List ℕ := []
  /-- Threads that have ended. -/
  ended : ℕ → Bool := fun _ => false
  stream : Bool := false
  initialized : Bool := false
  refCount : Int := 0
  /-- `generator_table_device`. -/
  table : Option ℕ := none
  /-- `g_generatorTable`, which the kernels read. -/
  symbol : Option ℕ := none
  /-- The groups with `cuda_initialized_` set. -/
  held : List ℕ := []

/-- `cudaFree`. -/
def free (s : State) (p : ℕ) : State :=
  if (s.live p).isSome then { s with live := Function.update s.live p none } else { s with fault := true }

/-- `cudaMalloc` that succeeds: a block no live block has. -/
def alloc (s : State) (bytes : ℕ) : State :=
  { s with live := Function.update s.live s.next (some bytes), next := s.next + 1 }

/-- Sets one buffer of one thread. -/
def setSlot (s : State) (t f : ℕ) (v : Slot) : State :=
  { s with slot := Function.update s.slot t (Function.update (s.slot t) f v) }

/-- One `if` of `Reset` (L131-135), and of `ensureDeviceArray` (L204-208). -/
def freeSlot (t : ℕ) (s : State) (f : ℕ) : State :=
  if (s.slot t f).ptr.isSome then setSlot (free s ((s.slot t f).ptr.getD 0)) t f {} else s

/-- `Sm2DeviceWorkspace::Reset` (L130-166) of thread `t`. -/
def reset (s : State) (t : ℕ) : State := (List.range fields).foldl (freeSlot t) s

/-- `registerWorkspaceCleanup` (L182-197). -/
def register (s : State) (t : ℕ) : State :=
  if s.registered t then s
  else { s with cleanups := s.cleanups ++ [t], registered := Function.update s.registered t true }

/-- `ensureDeviceArray` and `ensureDeviceBytes` (L199-236). -/
def ensure (s : State) (t f count : ℕ) (mallocOk : Bool) : State × Bool :=
  if count ≤ (s.slot t f).cap then (s, true)
  else
    let s := freeSlot t s f
    if mallocOk then (setSlot (alloc s (count * elem f)) t f ⟨some s.next, count⟩, true)
    else (setSlot s t f {}, false)

/-- A request of a batch call: the buffer, the count, and whether `cudaMalloc` would succeed. -/
structure Req where
  f : Fin 7
  count : ℕ
  mallocOk : Bool

/-- The sequence of requests of a batch call, which ends at the first failure (e.g. L2208-2216). -/
def ensureAll (t : ℕ) : List Req → State → State × Bool
  | [], s => (s, true)
  | r :: rs, s => if (ensure s t r.f r.count r.mallocOk).2 then ensureAll t rs (ensure s t r.f r.count r.mallocOk).1
    else ((ensure s t r.f r.count r.mallocOk).1, false)

/-- The start of a batch call of thread `t` (e.g. L2201-2216): no stream, no work; otherwise register and get the buffers. -/
def call (t : ℕ) (reqs : List Req) (s : State) : State × Bool :=
  if s.stream then ensureAll t reqs (register s t) else (s, false)

/-- `cleanupAllWorkspaces` (L238-246): a callback whose workspace is gone does nothing. -/
def cleanupAll (s : State) : State := s.cleanups.foldl (fun s t => if s.ended t then s else reset s t) s

/-- `cudaSm2Init` (L263-286); the second component tells whether a device was returned. -/
def sm2Init (s : State) (setOk streamOk : Bool) : State × Bool :=
  if s.initialized then ({ s with refCount := s.refCount + 1 }, true)
  else if !setOk then (s, false)
  else if !streamOk then ({ s with stream := false }, false)
  else ({ s with stream := true, initialized := true, refCount := 1 }, true)

/-- Release of the generator table (L306-314). -/
def freeTable (s : State) (symOk : Bool) : State :=
  if s.table.isSome && symOk then
    { free { s with symbol := none } (s.table.getD 0) with table := none }
  else s

/-- `cudaSm2Cleanup` (L288-323). -/
def sm2Cleanup (s : State) (symOk : Bool) : State :=
  if !s.initialized then s
  else if s.refCount - 1 > 0 then { s with refCount := s.refCount - 1 }
  else { freeTable (cleanupAll { s with refCount := s.refCount - 1 }) symOk with stream := false, initialized := false, refCount := 0 }

/-- `copyTableToConstantMemory` (L2574-2612). -/
def copyTable (s : State) (mallocOk copyOk symOk : Bool) : State :=
  if s.table.isNone then
    if !mallocOk then s
    else
      let s1 := { alloc s tableBytes with table := some s.next }
      if !copyOk then s1
      else if symOk then { s1 with symbol := s1.table }
      else { free s1 s.next with table := none }
  else if !copyOk then s
  else if symOk then { s with symbol := s.table } else s

/-- `initCuda` of a new group `g` (cuda_sm2_group.cc L211-255, called at L184); `ok` are the outcomes of the five CUDA calls. -/
def create (g : ℕ) (setOk streamOk mallocOk copyOk symOk : Bool) (s : State) : State :=
  if (sm2Init s setOk streamOk).2 then
    { copyTable (sm2Init s setOk streamOk).1 mallocOk copyOk symOk with held := g :: s.held }
  else (sm2Init s setOk streamOk).1

/-- `cleanupCuda` (cuda_sm2_group.cc L257-263), called by the destructor (L187). -/
def destroy (g : ℕ) (symOk : Bool) (s : State) : State :=
  if g ∈ s.held then { sm2Cleanup s symOk with held := s.held.erase g } else s

/-- The hand-over of the flag when group `a` is moved into group `b` (L189-196, L202-206). -/
def handOver (a b : ℕ) (s : State) : State :=
  if a ∈ s.held then { s with held := b :: s.held.erase a } else s

/-- Move assignment `b = std::move(a)` (L198-209). -/
def moveAssign (a b : ℕ) (symOk : Bool) (s : State) : State :=
  if a = b then s else handOver a b (destroy b symOk s)

/-- The end of thread `t`: the last reference to its workspace goes away (L168, L173-174). -/
def endThread (t : ℕ) (s : State) : State := { reset s t with ended := Function.update s.ended t true }

/-- What the process may do. -/
inductive Op where
  | create (g : ℕ) (setOk streamOk mallocOk copyOk symOk : Bool)
  | destroy (g : ℕ) (symOk : Bool)
  | moveCtor (a b : ℕ)
  | moveAssign (a b : ℕ) (symOk : Bool)
  | call (t : ℕ) (reqs : List Req)
  | endThread (t : ℕ)

/-- One operation.  A new group has a new number and a thread that has ended does nothing. -/
def step (s : State) : Op → State
  | .create g a b c d e => if g ∈ s.held then s else create g a b c d e s
  | .destroy g e => destroy g e s
  | .moveCtor a b => if b ∈ s.held then s else handOver a b s
  | .moveAssign a b e => moveAssign a b e s
  | .call t reqs => if s.ended t then s else (call t reqs s).1
  | .endThread t => if s.ended t then s else endThread t s

/-- A history of the process. -/
def run (ops : List Op) (s : State) : State := ops.foldl step s

/-! ### The invariant of memory -/

/-- What holds of the memory after every operation. -/
structure Ok (s : State) : Prop where
  fault : s.fault = false
  bound : ∀ p, s.next ≤ p → s.live p = none
  slotLive : ∀ t f p, (s.slot t f).ptr = some p → s.live p = some ((s.slot t f).cap * elem f)
  slotField : ∀ t f p, (s.slot t f).ptr = some p → f < fields
  slotReg : ∀ t f p, (s.slot t f).ptr = some p → t ∈ s.cleanups ∧ s.ended t = false
  inj : ∀ t f t' f' p, (s.slot t f).ptr = some p → (s.slot t' f').ptr = some p → t = t' ∧ f = f'
  empty : ∀ t f, (s.slot t f).ptr = none → (s.slot t f).cap = 0
  owned : ∀ p n, s.live p = some n → (∃ t f, (s.slot t f).ptr = some p) ∨ s.table = some p
  tableLive : ∀ p, s.table = some p → s.live p = some tableBytes
  tableSlot : ∀ t f p, s.table = some p → (s.slot t f).ptr ≠ some p
  symbol : s.symbol = none ∨ s.symbol = s.table
  reg : ∀ t, s.registered t = true → t ∈ s.cleanups

theorem ok_init : Ok {} := by
  constructor <;> simp

theorem ok_freeSlot {s : State} (h : Ok s) (t f : ℕ) : Ok (freeSlot t s f) := by
  unfold freeSlot
  split
  · rename_i hs
    obtain ⟨p, hp⟩ := Option.isSome_iff_exists.1 hs
    have hl := h.slotLive t f p hp
    have key : ∀ t' f', (Function.update s.slot t (Function.update (s.slot t) f ({} : Slot)) t' f') =
        if t' = t ∧ f' = f then {} else s.slot t' f' := by
      intro t' f'
      by_cases ht : t' = t
      · subst ht
        by_cases hf : f' = f
        · subst hf; simp
        · simp [hf]
      · simp [ht]
    simp only [hp, Option.getD_some, free, hl, Option.isSome_some, if_true, setSlot]
    have hne : ∀ t' f' q, ¬(t' = t ∧ f' = f) → (s.slot t' f').ptr = some q → q ≠ p := by
      rintro t' f' q hn hq rfl
      exact hn (h.inj _ _ _ _ _ hq hp)
    constructor <;> simp only [key]
    · exact h.fault
    · intro q hq
      by_cases e : q = p
      · simp [e]
      · simp [e, h.bound q hq]
    · intro t' f' q
      split
      · simp
      · rename_i hn
        intro hq
        rw [Function.update_of_ne (hne _ _ _ hn hq)]
        exact h.slotLive _ _ _ hq
    · intro t' f' q
      split
      · simp
      · exact h.slotField _ _ _
    · intro t' f' q
      split
      · simp
      · exact h.slotReg _ _ _
    · intro t1 f1 t2 f2 q
      split
      · simp
      · split
        · simp
        · exact h.inj _ _ _ _ _
    · intro t' f'
      split
      · simp
      · exact h.empty _ _
    · intro q n hq
      have e : q ≠ p := by rintro rfl; simp at hq
      rw [Function.update_of_ne e] at hq
      rcases h.owned q n hq with ⟨t', f', ho⟩ | ho
      · refine .inl ⟨t', f', ?_⟩
        rw [if_neg]
        · exact ho
        · rintro ⟨rfl, rfl⟩
          rw [hp] at ho
          exact e (Option.some.inj ho).symm
      · exact .inr ho
    · intro q hq
      have e : q ≠ p := by rintro rfl; exact h.tableSlot t f q hq hp
      rw [Function.update_of_ne e]
      exact h.tableLive q hq
    · intro t' f' q hq
      split
      · simp
      · exact h.tableSlot _ _ _ hq
    · exact h.symbol
    · exact h.reg
  · exact h

/-- Fields that freeing a buffer leaves alone. -/
theorem freeSlot_frame (s : State) (t f : ℕ) :
    (freeSlot t s f).registered = s.registered ∧ (freeSlot t s f).cleanups = s.cleanups ∧ (freeSlot t s f).ended = s.ended ∧
    (freeSlot t s f).stream = s.stream ∧ (freeSlot t s f).initialized = s.initialized ∧ (freeSlot t s f).refCount = s.refCount ∧
    (freeSlot t s f).table = s.table ∧ (freeSlot t s f).symbol = s.symbol ∧ (freeSlot t s f).held = s.held ∧
    (freeSlot t s f).next = s.next := by
  unfold freeSlot free setSlot
  split <;> [split; skip] <;> simp

theorem freeSlot_slot (s : State) (t f t' f' : ℕ) (he : ∀ t f, (s.slot t f).ptr = none → (s.slot t f).cap = 0) :
    (freeSlot t s f).slot t' f' = if t' = t ∧ f' = f then {} else s.slot t' f' := by
  unfold freeSlot
  split
  · have : (free s ((s.slot t f).ptr.getD 0)).slot = s.slot := by unfold free; split <;> rfl
    simp only [setSlot, this]
    by_cases ht : t' = t
    · subst ht
      by_cases hf : f' = f
      · subst hf; simp
      · simp [hf]
    · simp [ht]
  · rename_i hn
    have hn : (s.slot t f).ptr = none := by simpa using hn
    split
    · rename_i e
      obtain ⟨rfl, rfl⟩ := e
      have := he _ _ hn
      rcases hs : s.slot t' f' with ⟨a, b⟩
      rw [hs] at hn this
      simp only at hn this
      rw [hn, this]
    · rfl

/-- What freeing buffers leaves alone. -/
structure Frame (s s' : State) : Prop where
  registered : s'.registered = s.registered
  cleanups : s'.cleanups = s.cleanups
  ended : s'.ended = s.ended
  stream : s'.stream = s.stream
  initialized : s'.initialized = s.initialized
  refCount : s'.refCount = s.refCount
  table : s'.table = s.table
  symbol : s'.symbol = s.symbol
  held : s'.held = s.held

theorem Frame.rfl' (s : State) : Frame s s := ⟨rfl, rfl, rfl, rfl, rfl, rfl, rfl, rfl, rfl⟩

theorem Frame.trans {a b c : State} (h : Frame a b) (k : Frame b c) : Frame a c :=
  ⟨k.1.trans h.1, k.2.trans h.2, k.3.trans h.3, k.4.trans h.4, k.5.trans h.5, k.6.trans h.6, k.7.trans h.7, k.8.trans h.8, k.9.trans h.9⟩

theorem frame_freeSlot (s : State) (t f : ℕ) : Frame s (freeSlot t s f) := by
  obtain ⟨a, b, c, d, e, f, g, h, i, _⟩ := freeSlot_frame s t f
  exact ⟨a, b, c, d, e, f, g, h, i⟩

theorem resetList (t : ℕ) : ∀ (l : List ℕ) (s : State), Ok s →
    Ok (l.foldl (freeSlot t) s) ∧ Frame s (l.foldl (freeSlot t) s) ∧
    ∀ t' f', (l.foldl (freeSlot t) s).slot t' f' = if t' = t ∧ f' ∈ l then {} else s.slot t' f'
  | [], s, h => ⟨h, .rfl' s, by simp⟩
  | f :: l, s, h => by
    obtain ⟨a, b, c⟩ := resetList t l (freeSlot t s f) (ok_freeSlot h t f)
    refine ⟨a, (frame_freeSlot s t f).trans b, fun t' f' => ?_⟩
    rw [List.foldl_cons, c, freeSlot_slot _ _ _ _ _ h.empty]
    by_cases ht : t' = t <;> by_cases hl : f' ∈ l <;> by_cases hf : f' = f <;> simp [ht, hl, hf]

theorem reset_spec {s : State} (h : Ok s) (t : ℕ) :
    Ok (reset s t) ∧ Frame s (reset s t) ∧ ∀ t' f', (reset s t).slot t' f' = if t' = t then {} else s.slot t' f' := by
  obtain ⟨a, b, c⟩ := resetList t (List.range fields) s h
  refine ⟨a, b, fun t' f' => ?_⟩
  rw [reset, c]
  by_cases ht : t' = t
  · by_cases hf : f' < fields
    · simp [ht, hf]
    · have hn : (s.slot t f').ptr = none := by
        cases hp : (s.slot t f').ptr with
        | none => rfl
        | some p => exact absurd (h.slotField _ _ _ hp) hf
      have h0 := h.empty _ _ hn
      subst ht
      rcases hs : s.slot t' f' with ⟨x, y⟩
      rw [hs] at hn h0
      simp only at hn h0
      simp [hf, hn, h0]
  · simp [ht]

theorem ok_register {s : State} (h : Ok s) (t : ℕ) : Ok (register s t) := by
  unfold register
  split
  · exact h
  · refine ⟨h.fault, h.bound, h.slotLive, h.slotField, fun t' f p hp => ?_, h.inj, h.empty, h.owned, h.tableLive, h.tableSlot, h.symbol, ?_⟩
    · exact ⟨by simp [(h.slotReg t' f p hp).1], (h.slotReg t' f p hp).2⟩
    · intro t' ht'
      by_cases e : t' = t
      · simp [e]
      · simp only [Function.update_of_ne e] at ht'
        simp [h.reg t' ht']

theorem register_mem {s : State} (h : Ok s) (t : ℕ) : t ∈ (register s t).cleanups := by
  unfold register
  split
  · rename_i e; exact h.reg t e
  · simp

theorem setSlot_slot (s : State) (t f t' f' : ℕ) (v : Slot) :
    (setSlot s t f v).slot t' f' = if t' = t ∧ f' = f then v else s.slot t' f' := by
  unfold setSlot
  by_cases ht : t' = t
  · subst ht
    by_cases hf : f' = f
    · subst hf; simp
    · simp [hf]
  · simp [ht]

theorem ok_allocSlot {s : State} (h : Ok s) {t f : ℕ} (count : ℕ) (hf : f < fields) (ht : t ∈ s.cleanups) (he : s.ended t = false)
    (hn : (s.slot t f).ptr = none) : Ok (setSlot (alloc s (count * elem f)) t f ⟨some s.next, count⟩) := by
  have hb := h.bound s.next (Nat.le_refl _)
  have hne : ∀ p n, s.live p = some n → p ≠ s.next := by rintro p n hp rfl; rw [hb] at hp; cases hp
  constructor <;> (try simp only [setSlot_slot])
  · exact h.fault
  · intro p hp
    have : s.next + 1 ≤ p := hp
    simp only [setSlot, alloc]
    rw [Function.update_of_ne (by omega)]
    exact h.bound p (by omega)
  · intro t' f' p
    simp only [setSlot, alloc]
    split
    · rename_i e
      rintro hp
      cases hp
      simp [e.2]
    · intro hp
      have := h.slotLive _ _ _ hp
      rw [Function.update_of_ne (hne _ _ this)]
      exact this
  · intro t' f' p
    split
    · rename_i e; intro _; rw [e.2]; exact hf
    · exact h.slotField _ _ _
  · intro t' f' p
    split
    · rename_i e; intro _; rw [e.1]; exact ⟨ht, he⟩
    · exact h.slotReg _ _ _
  · intro t1 f1 t2 f2 p
    split
    · rename_i e
      split
      · rename_i e'
        intro _ _
        exact ⟨e.1.trans e'.1.symm, e.2.trans e'.2.symm⟩
      · intro hp hq
        cases hp
        exact absurd rfl (hne _ _ (h.slotLive _ _ _ hq))
    · split
      · intro hp hq
        cases hq
        exact absurd rfl (hne _ _ (h.slotLive _ _ _ hp))
      · exact h.inj _ _ _ _ _
  · intro t' f'
    split
    · simp
    · exact h.empty _ _
  · intro p n
    simp only [setSlot, alloc]
    by_cases e : p = s.next
    · intro _
      refine .inl ⟨t, f, ?_⟩
      simp [e]
    · rw [Function.update_of_ne e]
      intro hp
      rcases h.owned p n hp with ⟨t', f', ho⟩ | ho
      · refine .inl ⟨t', f', ?_⟩
        rw [if_neg]
        · exact ho
        · rintro ⟨rfl, rfl⟩
          rw [hn] at ho; cases ho
      · exact .inr ho
  · intro p hp
    have := h.tableLive p hp
    simp only [setSlot, alloc]
    rw [Function.update_of_ne (hne _ _ this)]
    exact this
  · intro t' f' p hp
    split
    · rintro e
      cases e
      exact hne _ _ (h.tableLive _ hp) rfl
    · exact h.tableSlot _ _ _ hp
  · exact h.symbol
  · exact h.reg

theorem setSlot_self {s : State} {t f : ℕ} (h : s.slot t f = {}) : setSlot s t f {} = s := by
  have : Function.update s.slot t (Function.update (s.slot t) f ({} : Slot)) = s.slot := by
    rw [← h]; simp
  unfold setSlot
  rw [this]

theorem ensure_spec {s : State} (h : Ok s) {t f : ℕ} (count : ℕ) (b : Bool) (hf : f < fields) (ht : t ∈ s.cleanups)
    (he : s.ended t = false) :
    Ok (ensure s t f count b).1 ∧ Frame s (ensure s t f count b).1 ∧
    (∀ t' f', ¬(t' = t ∧ f' = f) → (ensure s t f count b).1.slot t' f' = s.slot t' f') ∧
    ((ensure s t f count b).2 = true → count ≤ ((ensure s t f count b).1.slot t f).cap) ∧
    ((ensure s t f count b).2 = false → b = false ∧ (ensure s t f count b).1.slot t f = {}) := by
  unfold ensure
  split
  · rename_i hc
    exact ⟨h, .rfl' s, fun _ _ _ => rfl, fun _ => hc, fun e => by cases e⟩
  · have h1 := ok_freeSlot h t f
    have fr := frame_freeSlot s t f
    have sl : ∀ t' f', (freeSlot t s f).slot t' f' = if t' = t ∧ f' = f then {} else s.slot t' f' :=
      fun t' f' => freeSlot_slot s t f t' f' h.empty
    generalize freeSlot t s f = s1 at *
    have h0 : s1.slot t f = {} := by rw [sl]; simp
    cases b
    · simp only [Bool.false_eq_true, if_false]
      rw [setSlot_self h0]
      refine ⟨h1, fr, fun t' f' hn => by rw [sl, if_neg hn], fun e => (by cases e), fun _ => ⟨trivial, h0⟩⟩
    · simp only [if_true]
      refine ⟨ok_allocSlot h1 count hf (by rw [fr.cleanups]; exact ht) (by rw [fr.ended]; exact he) (by rw [h0]), ?_, ?_, ?_, fun e => by cases e⟩
      · exact fr.trans ⟨rfl, rfl, rfl, rfl, rfl, rfl, rfl, rfl, rfl⟩
      · intro t' f' hn
        rw [setSlot_slot, if_neg hn]
        exact (sl t' f').trans (if_neg hn)
      · intro _
        rw [setSlot_slot]
        simp

theorem ensureAll_spec (t : ℕ) : ∀ (rs : List Req) (s : State), Ok s → t ∈ s.cleanups → s.ended t = false →
    Ok (ensureAll t rs s).1 ∧ Frame s (ensureAll t rs s).1 ∧
    (∀ t' f', (t' ≠ t ∨ ∀ r ∈ rs, (r.f : ℕ) ≠ f') → (ensureAll t rs s).1.slot t' f' = s.slot t' f') ∧
    ((ensureAll t rs s).2 = true → (rs.map (·.f)).Nodup → ∀ r ∈ rs, r.count ≤ ((ensureAll t rs s).1.slot t r.f).cap) ∧
    ((∀ r ∈ rs, r.mallocOk = true) → (ensureAll t rs s).2 = true)
  | [], s, h, _, _ => ⟨h, .rfl' s, fun _ _ _ => rfl, fun _ _ r hr => (by cases hr), fun _ => rfl⟩
  | r :: rs, s, h, ht, he => by
    obtain ⟨a, b, c, d, e⟩ := ensure_spec h (t := t) (f := r.f) r.count r.mallocOk r.f.2 ht he
    unfold ensureAll
    cases hb : (ensure s t r.f r.count r.mallocOk).2
    · rw [if_neg (by simp)]
      refine ⟨a, b, fun t' f' hh => c t' f' ?_, fun k => (by cases k), fun k => ?_⟩
      · rintro ⟨rfl, rfl⟩
        rcases hh with hh | hh
        · exact hh rfl
        · exact hh r (by simp) rfl
      · have := (e hb).1
        rw [k r (by simp)] at this; cases this
    · rw [if_pos rfl]
      have d := d hb
      generalize (ensure s t r.f r.count r.mallocOk).1 = s1 at *
      obtain ⟨a', b', c', d', e'⟩ := ensureAll_spec t rs s1 a (by rw [b.cleanups]; exact ht) (by rw [b.ended]; exact he)
      refine ⟨a', b.trans b', fun t' f' hh => ?_, fun k nd q hq => ?_, fun k => e' fun q hq => k q (by simp [hq])⟩
      · rw [c' t' f' (hh.imp id fun hh q hq => hh q (by simp [hq])), c t' f']
        rintro ⟨rfl, rfl⟩
        rcases hh with hh | hh
        · exact hh rfl
        · exact hh r (by simp) rfl
      · rw [List.map_cons, List.nodup_cons] at nd
        rcases List.mem_cons.1 hq with rfl | hq
        · rw [c' t q.f (.inr fun q' hq' e => nd.1 (List.mem_map.2 ⟨q', hq', Fin.ext e⟩))]
          exact d
        · exact d' k nd.2 q hq

theorem cleanupList : ∀ (l : List ℕ) (s : State), Ok s →
    let s' := l.foldl (fun s t => if s.ended t then s else reset s t) s
    Ok s' ∧ Frame s s' ∧ (∀ t f, s.slot t f = {} → s'.slot t f = {}) ∧ ∀ t ∈ l, ∀ f, s.ended t = false → s'.slot t f = {}
  | [], s, h => ⟨h, .rfl' s, fun _ _ h => h, fun t ht => by cases ht⟩
  | x :: l, s, h => by
    intro s'
    have hx : s' = l.foldl (fun s t => if s.ended t then s else reset s t) (if s.ended x then s else reset s x) := rfl
    obtain ⟨a, b, c⟩ := reset_spec h x
    cases hd : s.ended x
    · rw [hd, if_neg (by simp)] at hx
      obtain ⟨a', b', c', d'⟩ := cleanupList l (reset s x) a
      rw [hx]
      refine ⟨a', b.trans b', fun t f hh => c' t f ?_, fun t ht f he => ?_⟩
      · rw [c]; split
        · rfl
        · exact hh
      · rcases List.mem_cons.1 ht with rfl | ht
        · exact c' t f (by rw [c]; simp)
        · exact d' t ht f (by rw [b.ended]; exact he)
    · rw [hd, if_pos rfl] at hx
      obtain ⟨a', b', c', d'⟩ := cleanupList l s h
      rw [hx]
      refine ⟨a', b', c', fun t ht f he => ?_⟩
      rcases List.mem_cons.1 ht with rfl | ht
      · rw [hd] at he; cases he
      · exact d' t ht f he

theorem cleanupAll_spec {s : State} (h : Ok s) :
    Ok (cleanupAll s) ∧ Frame s (cleanupAll s) ∧ ∀ t f, (cleanupAll s).slot t f = {} := by
  obtain ⟨a, b, c, d⟩ := cleanupList s.cleanups s h
  refine ⟨a, b, fun t f => ?_⟩
  cases hp : (s.slot t f).ptr with
  | none =>
    have h0 := h.empty t f hp
    refine c t f ?_
    rcases hs : s.slot t f with ⟨x, y⟩
    rw [hs] at hp h0
    simp only at hp h0
    rw [hp, h0]
  | some p => exact d t (h.slotReg t f p hp).1 f (h.slotReg t f p hp).2

/-- Changes to the count, the stream and the groups do not touch memory. -/
theorem Ok.congr {s s' : State} (h : Ok s) (h1 : s'.live = s.live) (h2 : s'.next = s.next) (h3 : s'.fault = s.fault) (h4 : s'.slot = s.slot)
    (h5 : s'.registered = s.registered) (h6 : s'.cleanups = s.cleanups) (h7 : s'.ended = s.ended) (h8 : s'.table = s.table)
    (h9 : s'.symbol = s.symbol) : Ok s' := by
  cases s; cases s'
  simp only at h1 h2 h3 h4 h5 h6 h7 h8 h9
  subst h1 h2 h3 h4 h5 h6 h7 h8 h9
  exact ⟨h.1, h.2, h.3, h.4, h.5, h.6, h.7, h.8, h.9, h.10, h.11, h.12⟩

/-- Freeing the table, with the symbol cleared. -/
theorem ok_dropTable {s : State} (h : Ok s) {p : ℕ} (hp : s.table = some p) :
    Ok { free { s with symbol := none } p with table := none } := by
  have hl := h.tableLive p hp
  simp only [free, hl, Option.isSome_some, if_true]
  refine ⟨h.fault, fun q hq => ?_, fun t f q hq => ?_, h.slotField, h.slotReg, h.inj, h.empty, fun q n hq => ?_, fun q hq => (by cases hq), fun t f q hq => (by cases hq), .inl rfl, h.reg⟩
  · by_cases e : q = p
    · simp [e]
    · simp [e, h.bound q hq]
  · have e : q ≠ p := by rintro rfl; exact h.tableSlot t f q hp hq
    show Function.update s.live p none q = _
    rw [Function.update_of_ne e]
    exact h.slotLive t f q hq
  · have e : q ≠ p := by rintro rfl; simp at hq
    simp only [Function.update_of_ne e] at hq
    rcases h.owned q n hq with ho | ho
    · exact .inl ho
    · rw [hp] at ho; exact absurd (Option.some.inj ho).symm e

theorem ok_freeTable {s : State} (h : Ok s) (b : Bool) : Ok (freeTable s b) := by
  unfold freeTable
  split
  · rename_i e
    rw [Bool.and_eq_true] at e
    obtain ⟨p, hp⟩ := Option.isSome_iff_exists.1 e.1
    have hg : s.table.getD 0 = p := by rw [hp]; rfl
    rw [hg]
    exact ok_dropTable h hp
  · exact h

theorem ok_allocTable {s : State} (h : Ok s) (hn : s.table = none) : Ok { alloc s tableBytes with table := some s.next } := by
  have hb := h.bound s.next (Nat.le_refl _)
  have hne : ∀ p n, s.live p = some n → p ≠ s.next := by rintro p n hp rfl; rw [hb] at hp; cases hp
  refine ⟨h.fault, fun q hq => ?_, fun t f q hq => ?_, h.slotField, h.slotReg, h.inj, h.empty, fun q n hq => ?_, fun q hq => ?_, fun t f q hq => ?_, ?_, h.reg⟩
  · have : s.next + 1 ≤ q := hq
    simp only [alloc]
    rw [Function.update_of_ne (by omega)]
    exact h.bound q (by omega)
  · have := h.slotLive t f q hq
    simp only [alloc]
    rw [Function.update_of_ne (hne _ _ this)]
    exact this
  · simp only [alloc] at hq
    by_cases e : q = s.next
    · exact .inr (by rw [e])
    · rw [Function.update_of_ne e] at hq
      rcases h.owned q n hq with ho | ho
      · exact .inl ho
      · rw [hn] at ho; cases ho
  · cases hq; simp [alloc]
  · cases hq
    intro hp
    exact hne _ _ (h.slotLive t f _ hp) rfl
  · rcases h.symbol with e | e
    · exact .inl e
    · exact .inl (e.trans hn)

theorem ok_copyTable {s : State} (h : Ok s) (a b c : Bool) : Ok (copyTable s a b c) := by
  unfold copyTable
  split
  · rename_i e
    have hn : s.table = none := by simpa using e
    have h1 := ok_allocTable h hn
    have hs : s.symbol = none := by
      rcases h.symbol with e | e
      · exact e
      · exact e.trans hn
    split
    · exact h
    · simp only
      split
      · exact h1
      · split
        · exact ⟨h1.1, h1.2, h1.3, h1.4, h1.5, h1.6, h1.7, h1.8, h1.9, h1.10, .inr rfl, h1.12⟩
        · have := ok_dropTable h1 (p := s.next) rfl
          have e : ({ alloc s tableBytes with table := some s.next, symbol := none } : State) = { alloc s tableBytes with table := some s.next } := by
            simp [alloc, hs]
          simp only [e] at this
          exact this
  · split
    · exact h
    · split
      · exact ⟨h.1, h.2, h.3, h.4, h.5, h.6, h.7, h.8, h.9, h.10, .inr rfl, h.12⟩
      · exact h

/-! ### The invariant of the process -/

/-- What holds after every operation. -/
structure Inv (s : State) : Prop where
  ok : Ok s
  count : s.refCount = s.held.length
  init : s.initialized = true ↔ s.held ≠ []
  stream : s.stream = s.initialized
  idle : s.held = [] → ∀ t f, s.slot t f = {}

theorem inv_init : Inv {} := ⟨ok_init, rfl, by simp, rfl, fun _ _ _ => rfl⟩

theorem copyTable_frame (s : State) (a b c : Bool) : (copyTable s a b c).slot = s.slot ∧ (copyTable s a b c).refCount = s.refCount ∧
    (copyTable s a b c).initialized = s.initialized ∧ (copyTable s a b c).stream = s.stream ∧ (copyTable s a b c).ended = s.ended := by
  unfold copyTable free alloc
  split
  · split
    · simp
    · simp only
      split
      · simp
      · split
        · simp
        · split <;> simp
  · split
    · simp
    · split <;> simp

theorem freeTable_frame (s : State) (b : Bool) : (freeTable s b).slot = s.slot ∧ (freeTable s b).ended = s.ended := by
  unfold freeTable free
  split
  · simp only
    split <;> simp
  · simp

theorem inv_create {s : State} (h : Inv s) (g : ℕ) (a b c d e : Bool) : Inv (create g a b c d e s) := by
  unfold create
  cases hi : s.initialized
  · have hh : s.held = [] := by
      by_contra hne
      rw [(h.init).2 hne] at hi; cases hi
    cases a
    · have : sm2Init s false b = (s, false) := by simp [sm2Init, hi]
      rw [this]; simpa using h
    · cases b
      · have : sm2Init s true false = ({ s with stream := false }, false) := by simp [sm2Init, hi]
        rw [this]
        have hs : s.stream = false := by rw [h.stream, hi]
        have e : ({ s with stream := false } : State) = s := by rw [← hs]
        simp only [e]
        simpa using h
      · have : sm2Init s true true = ({ s with stream := true, initialized := true, refCount := 1 }, true) := by simp [sm2Init, hi]
        rw [this]
        simp only [if_true]
        have o : Ok { s with stream := true, initialized := true, refCount := 1 } := h.ok.congr rfl rfl rfl rfl rfl rfl rfl rfl rfl
        have o' := ok_copyTable o c d e
        obtain ⟨f1, f2, f3, f4, _⟩ := copyTable_frame { s with stream := true, initialized := true, refCount := 1 } c d e
        refine ⟨o'.congr rfl rfl rfl rfl rfl rfl rfl rfl rfl, ?_, ?_, ?_, fun k => by simp at k⟩
        · show (copyTable _ c d e).refCount = ((g :: s.held).length : Int)
          rw [f2, hh]; rfl
        · show (copyTable _ c d e).initialized = true ↔ g :: s.held ≠ []
          rw [f3]; simp
        · show (copyTable _ c d e).stream = (copyTable _ c d e).initialized
          rw [f3, f4]
  · have : sm2Init s a b = ({ s with refCount := s.refCount + 1 }, true) := by simp [sm2Init, hi]
    rw [this]
    simp only [if_true]
    have o : Ok { s with refCount := s.refCount + 1 } := h.ok.congr rfl rfl rfl rfl rfl rfl rfl rfl rfl
    have o' := ok_copyTable o c d e
    obtain ⟨f1, f2, f3, f4, _⟩ := copyTable_frame { s with refCount := s.refCount + 1 } c d e
    refine ⟨o'.congr rfl rfl rfl rfl rfl rfl rfl rfl rfl, ?_, ?_, ?_, fun k => by simp at k⟩
    · show (copyTable _ c d e).refCount = ((g :: s.held).length : Int)
      rw [f2]
      show s.refCount + 1 = _
      rw [h.count]; simp
    · show (copyTable _ c d e).initialized = true ↔ g :: s.held ≠ []
      rw [f3]
      simp [hi]
    · show (copyTable _ c d e).stream = (copyTable _ c d e).initialized
      rw [f3, f4]
      exact h.stream

theorem inv_destroy {s : State} (h : Inv s) (g : ℕ) (b : Bool) : Inv (destroy g b s) := by
  unfold destroy
  split
  · rename_i hg
    have hi : s.initialized = true := h.init.2 (List.ne_nil_of_mem hg)
    have hl := List.length_erase_of_mem hg
    have hp := List.length_pos_of_mem hg
    by_cases hc : s.refCount - 1 > 0
    · have e : sm2Cleanup s b = { s with refCount := s.refCount - 1 } := by
        unfold sm2Cleanup
        rw [if_neg (by simp [hi]), if_pos hc]
      rw [e]
      rw [h.count] at hc
      have hne : s.held.erase g ≠ [] := by
        rw [← List.length_pos_iff]; omega
      refine ⟨h.ok.congr rfl rfl rfl rfl rfl rfl rfl rfl rfl, ?_, ?_, h.stream, fun k => absurd k hne⟩
      · show s.refCount - 1 = ((s.held.erase g).length : Int)
        rw [h.count, hl]; omega
      · exact ⟨fun _ => hne, fun _ => hi⟩
    · have e : sm2Cleanup s b =
          { freeTable (cleanupAll { s with refCount := s.refCount - 1 }) b with stream := false, initialized := false, refCount := 0 } := by
        unfold sm2Cleanup
        rw [if_neg (by simp [hi]), if_neg hc]
      rw [e]
      rw [h.count] at hc
      have he : s.held.erase g = [] := by
        rw [← List.length_eq_zero_iff]; omega
      have o : Ok { s with refCount := s.refCount - 1 } := h.ok.congr rfl rfl rfl rfl rfl rfl rfl rfl rfl
      obtain ⟨a, _, c⟩ := cleanupAll_spec o
      have o' := ok_freeTable a b
      have f := (freeTable_frame (cleanupAll { s with refCount := s.refCount - 1 }) b).1
      refine ⟨o'.congr rfl rfl rfl rfl rfl rfl rfl rfl rfl, ?_, ?_, rfl, fun _ t x => ?_⟩
      · show (0 : Int) = ((s.held.erase g).length : Int)
        rw [he]; rfl
      · show false = true ↔ s.held.erase g ≠ []
        simp [he]
      · show (freeTable _ b).slot t x = {}
        rw [f]; exact c t x
  · exact h

theorem inv_handOver {s : State} (h : Inv s) (a b : ℕ) : Inv (handOver a b s) := by
  unfold handOver
  split
  · rename_i ha
    have hl := List.length_erase_of_mem ha
    have hp := List.length_pos_of_mem ha
    refine ⟨h.ok.congr rfl rfl rfl rfl rfl rfl rfl rfl rfl, ?_, ?_, h.stream, fun k => by simp at k⟩
    · simp only [h.count, List.length_cons, hl]; omega
    · simp only [h.init.2 (List.ne_nil_of_mem ha)]; simp
  · exact h

theorem register_frame (s : State) (t : ℕ) : (register s t).slot = s.slot ∧ (register s t).refCount = s.refCount ∧
    (register s t).initialized = s.initialized ∧ (register s t).stream = s.stream ∧ (register s t).ended = s.ended ∧
    (register s t).held = s.held ∧ (register s t).table = s.table := by
  unfold register; split <;> simp

theorem call_frame {s : State} (h : Ok s) (t : ℕ) (rs : List Req) (he : s.ended t = false) :
    Ok (call t rs s).1 ∧ (call t rs s).1.refCount = s.refCount ∧ (call t rs s).1.initialized = s.initialized ∧
    (call t rs s).1.stream = s.stream ∧ (call t rs s).1.held = s.held ∧ (call t rs s).1.ended = s.ended ∧
    (call t rs s).1.table = s.table ∧
    (∀ t' f, t' ≠ t → (call t rs s).1.slot t' f = s.slot t' f) ∧ (s.stream = false → (call t rs s).1 = s) := by
  unfold call
  split
  · rename_i hs
    obtain ⟨r1, r2, r3, r4, r5, r6, r7⟩ := register_frame s t
    obtain ⟨a, b, c, _, _⟩ := ensureAll_spec t rs (register s t) (ok_register h t) (register_mem h t) (by rw [r5]; exact he)
    refine ⟨a, b.refCount.trans r2, b.initialized.trans r3, b.stream.trans r4, b.held.trans r6, b.ended.trans r5, b.table.trans r7, fun t' f hn => ?_, fun k => ?_⟩
    · rw [c t' f (.inl hn), r1]
    · rw [k] at hs; cases hs
  · exact ⟨h, rfl, rfl, rfl, rfl, rfl, rfl, fun _ _ _ => rfl, fun _ => rfl⟩

theorem inv_call {s : State} (h : Inv s) (t : ℕ) (rs : List Req) (he : s.ended t = false) : Inv (call t rs s).1 := by
  obtain ⟨a, b, c, d, e, _, _, _, i⟩ := call_frame h.ok t rs he
  refine ⟨a, by rw [b, e]; exact h.count, by rw [c, e]; exact h.init, by rw [c, d]; exact h.stream, fun k => ?_⟩
  rw [e] at k
  have : s.stream = false := by
    rw [h.stream]
    cases hi : s.initialized
    · rfl
    · exact absurd k (h.init.1 hi)
  rw [i this]
  exact h.idle k

theorem inv_endThread {s : State} (h : Inv s) (t : ℕ) : Inv (endThread t s) := by
  obtain ⟨a, b, c⟩ := reset_spec h.ok t
  unfold endThread
  refine ⟨⟨a.1, a.2, a.3, a.4, fun t' f p hp => ⟨(a.slotReg t' f p hp).1, ?_⟩, a.6, a.7, a.8, a.9, a.10, a.11, a.12⟩, ?_, ?_, ?_, fun k t' f => ?_⟩
  · by_cases e : t' = t
    · simp only [c, e, if_true] at hp
      cases hp
    · simp only [Function.update_of_ne e]
      exact b.ended ▸ (a.slotReg t' f p hp).2
  · simp only [b.refCount, b.held, h.count]
  · simp only [b.initialized, b.held, h.init]
  · simp only [b.initialized, b.stream, h.stream]
  · simp only [b.held] at k
    simp only [c]
    split
    · rfl
    · exact h.idle k t' f

theorem inv_step {s : State} (h : Inv s) (o : Op) : Inv (step s o) := by
  cases o <;> simp only [step]
  · split
    · exact h
    · exact inv_create h ..
  · exact inv_destroy h ..
  · split
    · exact h
    · exact inv_handOver h ..
  · unfold moveAssign
    split
    · exact h
    · exact inv_handOver (inv_destroy h ..) ..
  · split
    · exact h
    · rename_i he
      exact inv_call h _ _ (by simpa using he)
  · split
    · exact h
    · exact inv_endThread h _

theorem inv_run (ops : List Op) : ∀ {s : State}, Inv s → Inv (run ops s) := by
  induction ops with
  | nil => exact fun h => h
  | cons o ops ih => exact fun h => ih (inv_step h o)

/-! ### C152 -/

/-- Specification: bytes of an element of each buffer (points, points2, scalars, scalars2, results, digests, error). -/
def width (f : Fin 7) : ℕ := [64, 64, 32, 32, 64, 1, 4].getD f 0

theorem elem_width : ∀ f : Fin 7, elem f = width f := by decide

/-- **C152** (count).  After every history the stream exists exactly while a group holds the device, and the count is the number of
such groups. -/
theorem C152_count (ops : List Op) :
    ((run ops {}).stream = true ↔ (run ops {}).held ≠ []) ∧ (run ops {}).refCount = (run ops {}).held.length := by
  have h := inv_run ops inv_init
  exact ⟨by rw [h.stream]; exact h.init, h.count⟩

/-- **C152** (memory).  After every history no block was freed twice, every buffer a thread holds and the table are live blocks of the
size recorded for them, no two of them share a block, and the kernels see no table or a live one. -/
theorem C152_memory (ops : List Op) :
    let s := run ops {}
    s.fault = false ∧
    (∀ t f p, (s.slot t f).ptr = some p → s.live p = some ((s.slot t f).cap * elem f)) ∧
    (∀ t f t' f' p, (s.slot t f).ptr = some p → (s.slot t' f').ptr = some p → t = t' ∧ f = f') ∧
    (∀ p, s.table = some p → s.live p = some (64 * 16 * 64) ∧ ∀ t f, (s.slot t f).ptr ≠ some p) ∧
    (∀ p, s.symbol = some p → s.live p = some (64 * 16 * 64)) := by
  have h := (inv_run ops inv_init).ok
  refine ⟨h.fault, h.slotLive, h.inj, fun p hp => ⟨h.tableLive p hp, fun t f => h.tableSlot t f p hp⟩, fun p hp => ?_⟩
  rcases h.symbol with e | e
  · rw [e] at hp; cases hp
  · exact h.tableLive p (e ▸ hp)

/-- **C152** (call).  After every history, a batch call by a running thread that gets past its requests has, for each buffer it asked
for, a live block with room for the count it asked for; it gets past them if the device has memory and a group is there, and it fails
if no group is there. -/
theorem C152_call (ops : List Op) (t : ℕ) (rs : List Req) (he : (run ops {}).ended t = false) (hn : (rs.map (·.f)).Nodup) :
    let s := run ops {}
    let r := call t rs s
    (r.2 = true → ∀ q ∈ rs, 0 < q.count → ∃ p n, (r.1.slot t q.f).ptr = some p ∧ r.1.live p = some n ∧ q.count * width q.f ≤ n) ∧
    (s.held ≠ [] → (∀ q ∈ rs, q.mallocOk = true) → r.2 = true) ∧ (s.held = [] → r.2 = false) := by
  intro s r
  have h : Inv s := inv_run ops inv_init
  have he : s.ended t = false := he
  by_cases hs : s.stream = true
  · obtain ⟨r1, r2, r3, r4, r5, r6, r7⟩ := register_frame s t
    obtain ⟨a, b, c, d, e⟩ := ensureAll_spec t rs (register s t) (ok_register h.ok t) (register_mem h.ok t) (by rw [r5]; exact he)
    have hr : r = ensureAll t rs (register s t) := if_pos hs
    rw [← hr] at a b c d e
    refine ⟨fun k q hq h0 => ?_, fun _ => e, fun k => ?_⟩
    · have hc := d k hn q hq
      cases hp : (r.1.slot t q.f).ptr with
      | none => have := a.empty _ _ hp; omega
      | some p => exact ⟨p, _, rfl, a.slotLive _ _ _ hp, by rw [← elem_width]; exact Nat.mul_le_mul_right _ hc⟩
    · rw [h.stream] at hs
      exact absurd k (h.init.1 hs)
  · have hr : r = (s, false) := if_neg hs
    rw [hr]
    refine ⟨fun k => (by cases k), fun k => ?_, fun _ => rfl⟩
    rw [h.stream] at hs
    exact absurd (h.init.2 k) hs

/-- **C152** (no leak).  After every history each live block is a buffer of a running thread, with a group there, or the table. -/
theorem C152_no_leak (ops : List Op) (p n : ℕ) (hp : (run ops {}).live p = some n) :
    let s := run ops {}
    s.table = some p ∨ (s.held ≠ [] ∧ ∃ t f, s.ended t = false ∧ f < 7 ∧ (s.slot t f).ptr = some p) := by
  intro s
  have h : Inv s := inv_run ops inv_init
  rcases h.ok.owned p n hp with ⟨t, f, ho⟩ | ho
  · refine .inr ⟨fun k => ?_, t, f, (h.ok.slotReg t f p ho).2, h.ok.slotField t f p ho, ho⟩
    rw [h.idle k] at ho; cases ho
  · exact .inl ho

theorem ensureAll_reuse (t : ℕ) : ∀ (rs : List Req) (s : State), (∀ q ∈ rs, q.count ≤ (s.slot t q.f).cap) → ensureAll t rs s = (s, true)
  | [], _, _ => rfl
  | r :: rs, s, h => by
    have e : ensure s t r.f r.count r.mallocOk = (s, true) := if_pos (h r (by simp))
    unfold ensureAll
    rw [e]
    exact ensureAll_reuse t rs s fun q hq => h q (by simp [hq])

/-- **C152** (reuse).  A later call of the thread that asks for no more than an earlier one got succeeds without touching the device memory,
even when the device has no memory left. -/
theorem C152_reuse (ops : List Op) (t : ℕ) (rs rs' : List Req) (he : (run ops {}).ended t = false) (hn : (rs.map (·.f)).Nodup)
    (hr : (call t rs (run ops {})).2 = true) (hle : ∀ q ∈ rs', ∃ r ∈ rs, r.f = q.f ∧ q.count ≤ r.count) :
    call t rs' (call t rs (run ops {})).1 = ((call t rs (run ops {})).1, true) := by
  have h : Inv (run ops {}) := inv_run ops inv_init
  generalize run ops {} = s at *
  have hs : s.stream = true := by
    cases k : s.stream
    · simp [call, k] at hr
    · rfl
  obtain ⟨r1, r2, r3, r4, r5, r6, r7⟩ := register_frame s t
  obtain ⟨a, b, c, d, e⟩ := ensureAll_spec t rs (register s t) (ok_register h.ok t) (register_mem h.ok t) (by rw [r5]; exact he)
  have hc : call t rs s = ensureAll t rs (register s t) := if_pos hs
  rw [← hc] at b d
  have hreg : (call t rs s).1.registered t = true := by
    rw [b.registered]
    unfold register
    split
    · assumption
    · simp
  have hstr : (call t rs s).1.stream = true := by rw [b.stream, r4]; exact hs
  have d := d hr hn
  generalize (call t rs s).1 = u at *
  have e1 : register u t = u := by unfold register; rw [if_pos hreg]
  unfold call
  rw [if_pos hstr, e1]
  refine ensureAll_reuse t rs' u fun q hq => ?_
  obtain ⟨r, hr1, hr2, hr3⟩ := hle q hq
  rw [← hr2]
  exact Nat.le_trans hr3 (d r hr1)

example : (call 5 [⟨2, 7, false⟩] (call 5 [⟨2, 9, true⟩, ⟨4, 9, true⟩] (run [.create 0 true true true true true] {})).1).2 = true ∧
    (call 5 [⟨2, 10, false⟩] (call 5 [⟨2, 9, true⟩, ⟨4, 9, true⟩] (run [.create 0 true true true true true] {})).1).2 = false := by
  decide +kernel

/-- Operations that are not work of thread `t`. -/
def notBy (t : ℕ) : Op → Prop
  | .call t' _ => t' ≠ t
  | .endThread t' => t' ≠ t
  | _ => True

theorem destroy_slot {s : State} (h : Inv s) (g : ℕ) (b : Bool) (hne : (destroy g b s).held ≠ []) : (destroy g b s).slot = s.slot := by
  unfold destroy at *
  split
  · rename_i hg
    rw [if_pos hg] at hne
    have hi : s.initialized = true := h.init.2 (List.ne_nil_of_mem hg)
    have hl := List.length_erase_of_mem hg
    have hp : 0 < (s.held.erase g).length := List.length_pos_iff.2 hne
    unfold sm2Cleanup
    rw [if_neg (by simp [hi]), if_pos (by rw [h.count]; omega)]
  · rfl

theorem handOver_held (s : State) (a b : ℕ) : (handOver a b s).slot = s.slot := by
  unfold handOver; split <;> rfl

/-- One operation of others leaves the buffers of `t` alone while groups remain. -/
theorem step_slot {s : State} (h : Inv s) (t : ℕ) (o : Op) (ho : notBy t o)
    (hd : ∀ a b e, o = .moveAssign a b e → (destroy b e s).held ≠ []) (hne : (step s o).held ≠ []) (f : ℕ) :
    (step s o).slot t f = s.slot t f := by
  cases o with
  | create g a b c d e =>
    simp only [step]
    split
    · rfl
    · unfold create
      have k : (sm2Init s a b).1.slot = s.slot := by unfold sm2Init; split <;> [skip; split <;> [skip; split]] <;> rfl
      split
      · have := (copyTable_frame (sm2Init s a b).1 c d e).1
        simp only [this, k]
      · rw [k]
  | destroy g e => simp only [step] at *; rw [destroy_slot h g e hne]
  | moveCtor a b =>
    simp only [step]
    split
    · rfl
    · rw [handOver_held]
  | moveAssign a b e =>
    simp only [step]
    unfold moveAssign
    split
    · rfl
    · rw [handOver_held, destroy_slot h b e (hd a b e rfl)]
  | call t' rs =>
    simp only [step]
    split
    · rfl
    · rename_i he
      exact (call_frame h.ok t' rs (by simpa using he)).2.2.2.2.2.2.2.1 t f (Ne.symm ho)
  | endThread t' =>
    simp only [step]
    split
    · rfl
    · unfold endThread
      have := (reset_spec h.ok t').2.2 t f
      rw [if_neg (Ne.symm ho)] at this
      exact this

/-- In every state on the way some group holds the device, also between the two halves of a move assignment. -/
def Kept : List Op → State → Prop
  | [], s => s.held ≠ []
  | o :: ops, s => s.held ≠ [] ∧ (∀ a b e, o = .moveAssign a b e → (destroy b e s).held ≠ []) ∧ Kept ops (step s o)

theorem Kept.head {ops : List Op} {s : State} (h : Kept ops s) : s.held ≠ [] := by
  cases ops with
  | nil => exact h
  | cons o ops => exact h.1

theorem run_slot (t : ℕ) : ∀ (mid : List Op) {s : State}, Inv s → (∀ o ∈ mid, notBy t o) → Kept mid s → ∀ f, (run mid s).slot t f = s.slot t f
  | [], _, _, _, _, _ => rfl
  | o :: mid, s, h, hn, k, f => by
    have := run_slot t mid (inv_step h o) (fun o' ho' => hn o' (by simp [ho'])) k.2.2 f
    exact this.trans (step_slot h t o (hn o (by simp)) k.2.1 k.2.2.head f)

/-- **C152** (in flight).  While a batch call of thread `t` is between its requests and its end, whatever other threads do, its buffers
stay the live blocks it got, as long as a group holds the device all the time. -/
theorem C152_in_flight (ops mid : List Op) (t : ℕ) (rs : List Req) (hn : (rs.map (·.f)).Nodup)
    (hr : (call t rs (run ops {})).2 = true) (he : (run ops {}).ended t = false)
    (ho : ∀ o ∈ mid, notBy t o) (hk : Kept mid (call t rs (run ops {})).1) :
    let s := (call t rs (run ops {})).1
    let s' := run mid s
    ∀ q ∈ rs, 0 < q.count → ∃ p n, (s.slot t q.f).ptr = some p ∧ (s'.slot t q.f).ptr = some p ∧ s'.live p = some n ∧
      q.count * width q.f ≤ n := by
  intro s s' q hq h0
  have hs : Inv s := inv_call (inv_run ops inv_init) t rs he
  obtain ⟨p, n, h1, h2, h3⟩ := (C152_call ops t rs he hn).1 hr q hq h0
  have e := run_slot t mid hs ho hk q.f
  have hs' : Inv s' := inv_run mid hs
  have hp : (s'.slot t q.f).ptr = some p := by rw [e]; exact h1
  have l1 := hs'.ok.slotLive t q.f p hp
  have l2 := hs.ok.slotLive t q.f p h1
  have h2 : s.live p = some n := h2
  refine ⟨p, n, h1, hp, ?_, h3⟩
  rw [l1, e, ← l2, h2]

/-- A batch call for three base-point multiples: scalars and results. -/
def threeBase : List Req := [⟨2, 3, true⟩, ⟨4, 3, true⟩]

/-- **C152** (the wrappers take no lock).  The last group may be destroyed by another thread while a call is in progress: then the
block the call's kernel is given is no longer live. -/
theorem C152_in_flight_violated : ∃ (ops : List Op) (t : ℕ) (rs : List Req) (o : Op), notBy t o ∧
    (call t rs (run ops {})).2 = true ∧
    ∃ q ∈ rs, ∃ p, (((call t rs (run ops {})).1).slot t q.f).ptr = some p ∧ (step (call t rs (run ops {})).1 o).live p = none :=
  ⟨[.create 0 true true true true true], 5, threeBase, .destroy 0 true, trivial, by decide +kernel,
    ⟨2, 3, true⟩, by simp [threeBase], 1, by decide +kernel, by decide +kernel⟩

/-- `n` threads that each make one call and end. -/
def manyThreads : ℕ → List Op
  | 0 => []
  | n + 1 => manyThreads n ++ [.call n threeBase, .endThread n]

/-- The state as the registry sees it after `n` such threads. -/
theorem manyThreads_spec {s : State} (h : Inv s) (hs : s.held ≠ []) (hc : s.cleanups = []) (he : ∀ t, s.ended t = false)
    (hr : ∀ t, s.registered t = false) : ∀ n,
    Inv (run (manyThreads n) s) ∧ (run (manyThreads n) s).held = s.held ∧ (run (manyThreads n) s).cleanups = List.range n ∧
    (∀ t, n ≤ t → (run (manyThreads n) s).ended t = false ∧ (run (manyThreads n) s).registered t = false) ∧
    ∀ t < n, (run (manyThreads n) s).ended t = true
  | 0 => ⟨h, rfl, hc, fun t _ => ⟨he t, hr t⟩, fun t ht => absurd ht (Nat.not_lt_zero t)⟩
  | n + 1 => by
    obtain ⟨a, b, c, d, d'⟩ := manyThreads_spec h hs hc he hr n
    have e : run (manyThreads (n + 1)) s = step (step (run (manyThreads n) s) (.call n threeBase)) (.endThread n) := by
      simp [manyThreads, run, List.foldl_append]
    rw [e]
    generalize run (manyThreads n) s = u at *
    obtain ⟨d1, d2⟩ := d n (Nat.le_refl _)
    have i1 := inv_step a (.call n threeBase)
    have i2 := inv_step i1 (.endThread n)
    have hst : u.stream = true := by rw [a.stream]; exact a.init.2 (b ▸ hs)
    have e1 : step u (.call n threeBase) = (ensureAll n threeBase (register u n)).1 := by
      simp only [step, d1, Bool.false_eq_true, if_false, call, hst, if_true]
    obtain ⟨r1, r2, r3, r4, r5, r6, r7⟩ := register_frame u n
    obtain ⟨_, k, _, _, _⟩ := ensureAll_spec n threeBase (register u n) (ok_register a.ok n) (register_mem a.ok n) (by rw [r5]; exact d1)
    rw [← e1] at k
    have en : (step u (.call n threeBase)).ended n = false := by rw [k.ended, r5]; exact d1
    have e2 : step (step u (.call n threeBase)) (.endThread n) = endThread n (step u (.call n threeBase)) := by
      simp only [step, d1, Bool.false_eq_true, if_false]
      simp only [step, d1, Bool.false_eq_true, if_false] at en
      simp only [en, Bool.false_eq_true, if_false]
    have rr : (register u n).cleanups = u.cleanups ++ [n] ∧ (register u n).registered = Function.update u.registered n true := by
      unfold register; rw [if_neg (by simp [d2])]; simp
    obtain ⟨_, m, _⟩ := reset_spec i1.ok n
    refine ⟨i2, ?_, ?_, fun t ht => ?_, fun t ht => ?_⟩
    · rw [e2]; simp only [endThread, m.held, k.held, r6]; exact b
    · rw [e2]; simp only [endThread, m.cleanups, k.cleanups, rr.1, c, List.range_succ]
    · obtain ⟨x, y⟩ := d t (by omega)
      have hne : t ≠ n := by omega
      rw [e2]
      simp only [endThread, Function.update_of_ne hne, k.ended, r5, m.registered, k.registered, rr.2]
      exact ⟨x, y⟩
    · rw [e2]
      simp only [endThread, k.ended, r5]
      by_cases hne : t = n
      · simp [hne]
      · rw [Function.update_of_ne hne]; exact d' t (by omega)

theorem destroy_registry {s : State} (h : Inv s) (g : ℕ) (b : Bool) :
    (destroy g b s).cleanups = s.cleanups ∧ (destroy g b s).ended = s.ended ∧ (destroy g b s).held = s.held.erase g := by
  unfold destroy
  split
  · unfold sm2Cleanup
    have o : Ok { s with refCount := s.refCount - 1 } := h.ok.congr rfl rfl rfl rfl rfl rfl rfl rfl rfl
    obtain ⟨_, fr, _⟩ := cleanupAll_spec o
    have ft : ∀ u : State, (freeTable u b).cleanups = u.cleanups ∧ (freeTable u b).ended = u.ended := by
      intro u
      unfold freeTable free
      split
      · simp only
        split <;> simp
      · simp
    split
    · exact ⟨rfl, rfl, rfl⟩
    · split
      · exact ⟨rfl, rfl, rfl⟩
      · exact ⟨(ft _).1.trans fr.cleanups, (ft _).2.trans fr.ended, rfl⟩
  · rename_i hg
    exact ⟨rfl, rfl, (List.erase_of_not_mem hg).symm⟩

/-- **C152** (the registry only grows).  The callbacks of threads that have ended are kept, also after the last group is gone: for every
`n` there is a history after which no group is left, and the registry holds `n` callbacks, each of a thread that has ended. -/
theorem C152_registry_violated (n : ℕ) : ∃ ops : List Op, (run ops {}).held = [] ∧ (run ops {}).cleanups.length = n ∧
    ∀ t ∈ (run ops {}).cleanups, (run ops {}).ended t = true := by
  have h0 := inv_run [.create 0 true true true true true] inv_init
  have hh : (run [.create 0 true true true true true] {}).held = [0] := by decide +kernel
  obtain ⟨a, b, c, _, d⟩ := manyThreads_spec h0 (by rw [hh]; simp) rfl (fun _ => rfl) (fun _ => rfl) n
  refine ⟨(.create 0 true true true true true :: manyThreads n) ++ [.destroy 0 true], ?_⟩
  have e : run ((.create 0 true true true true true :: manyThreads n) ++ [.destroy 0 true]) {} =
      destroy 0 true (run (manyThreads n) (run [.create 0 true true true true true] {})) := by
    simp [run, List.foldl_append, step]
  rw [e]
  obtain ⟨x, y, z⟩ := destroy_registry a 0 true
  rw [x, y, z, b, c, hh]
  exact ⟨by simp, by simp, fun t ht => d t (List.mem_range.1 ht)⟩

/-- **C152** (failed copy).  A group whose table could not be copied still holds the device; the kernels then see no table, and the block
stays until a later cleanup. -/
theorem C152_table_copy_failed : ∃ ops : List Op, (run ops {}).held ≠ [] ∧ (run ops {}).symbol = none ∧ (run ops {}).table.isSome = true :=
  ⟨[.create 0 true true true false true], by decide +kernel, by decide +kernel, by decide +kernel⟩

/-- **C152** (after the last group).  When no group is left, the only block that may remain is the table. -/
theorem C152_idle (ops : List Op) (hh : (run ops {}).held = []) (p n : ℕ) (hp : (run ops {}).live p = some n) :
    (run ops {}).table = some p := by
  rcases C152_no_leak ops p n hp with h | h
  · exact h
  · exact absurd hh h.1

/-- **C152** (clean end).  Destroying the last group, if the symbol can be cleared, leaves no live block at all and no stream. -/
theorem C152_clean_end (ops : List Op) (g : ℕ) (hh : (run ops {}).held = [g]) (p : ℕ) :
    (step (run ops {}) (.destroy g true)).live p = none ∧ (step (run ops {}) (.destroy g true)).stream = false ∧
    (step (run ops {}) (.destroy g true)).symbol = none := by
  have h := inv_run ops inv_init
  generalize run ops {} = s at *
  have hi := inv_step h (.destroy g true)
  have hz : (step s (.destroy g true)).held = [] := by
    have := (destroy_registry h g true).2.2
    simp only [step]
    rw [this, hh]; simp
  have ht : (step s (.destroy g true)).table = none := by
    have hin : s.initialized = true := h.init.2 (by rw [hh]; simp)
    simp only [step, destroy, hh, List.mem_singleton, if_true]
    unfold sm2Cleanup
    rw [if_neg (by simp [hin]), if_neg (by rw [h.count, hh]; simp)]
    show (freeTable _ true).table = none
    generalize cleanupAll _ = u
    unfold freeTable
    split
    · rfl
    · rename_i k
      simpa using k
  refine ⟨?_, ?_, ?_⟩
  · cases hp : (step s (.destroy g true)).live p with
    | none => rfl
    | some n =>
      rcases hi.ok.owned p n hp with ⟨t, f, ho⟩ | ho
      · rw [hi.idle hz] at ho; cases ho
      · rw [ht] at ho; cases ho
  · rw [hi.stream]
    cases hin : (step s (.destroy g true)).initialized
    · rfl
    · exact absurd hz (hi.init.1 hin)
  · rcases hi.ok.symbol with e | e
    · exact e
    · rw [e, ht]

/-! Cases that meet the hypotheses. -/

/-- Two groups, a call, a larger call that grows its buffers, and a call for which memory runs out. -/
def sampleOps : List Op :=
  [.create 0 true true true true true, .create 1 true true true true true, .call 5 threeBase, .call 5 [⟨2, 10, true⟩, ⟨4, 10, true⟩],
   .call 6 [⟨0, 4, true⟩, ⟨4, 4, false⟩], .destroy 0 true]

example : (run sampleOps {}).held = [1] ∧ (run sampleOps {}).refCount = 1 ∧ (run sampleOps {}).stream = true ∧
    ((run sampleOps {}).slot 5 2) = ⟨some 3, 10⟩ ∧ (run sampleOps {}).live 3 = some 320 ∧ (run sampleOps {}).live 1 = none ∧
    ((run sampleOps {}).slot 6 4) = {} ∧ ((run sampleOps {}).slot 6 0) = ⟨some 5, 4⟩ := by decide +kernel

example : (run sampleOps {}).ended 7 = false ∧ (threeBase.map (·.f)).Nodup ∧ (call 7 threeBase (run sampleOps {})).2 = true := by
  decide +kernel

example : Kept [.create 2 true true true true true, .call 6 threeBase, .destroy 1 true] (call 7 threeBase (run sampleOps {})).1 := by
  refine ⟨by decide +kernel, fun _ _ _ h => (by cases h), by decide +kernel, fun _ _ _ h => (by cases h), by decide +kernel,
    fun _ _ _ h => (by cases h), ?_⟩
  show (run (sampleOps ++ [.call 7 threeBase, .create 2 true true true true true, .call 6 threeBase, .destroy 1 true]) {}).held ≠ []
  decide +kernel

end Yacl.Cuda.Mem
