import Verif.Kernel.SilentVoleSilver

/-! The subfield VOLE kernel: yacl/kernel/svole_kernel.h, yacl/kernel/svole_kernel.cc. Property C118.

A session is one run of the silent VOLE protocol between the two parties on a link of its own. It is a function `core` from the number of the session and the three buffer parts to
what the buffer parts hold afterwards; C80 gives sessions for which the result is a VOLE. -/
namespace Yacl.SvoleKernel
open SilentVole Code

/-! ### Model -/

/-- svole_kernel.h L31-34: the buffers of both parties: the sender's `c`, the receiver's `a` and `b`. -/
structure Bufs (w v : Nat) where
  c : List (BitVec w)
  a : List (BitVec v)
  b : List (BitVec w)

/-- The part of a buffer from `off`, of `len` elements (`absl::Span::subspan`, which shortens a part that ends beyond the end; `off` is not beyond the end where it is used). -/
def part {α : Type} (buf : List α) (off len : Nat) : List α := (buf.drop off).take len

/-- Writing to the part of a buffer that begins at `off`. -/
def put {α : Type} (buf : List α) (off : Nat) (x : List α) : List α := buf.take off ++ x ++ buf.drop (off + x.length)

/-- svole_kernel.cc L82-89, L118-128: where the part of thread `i` begins. -/
def offOf (n threads i : Nat) : Nat := n / threads * i

/-- svole_kernel.cc L82-83, L118-119: its size. -/
def lenOf (n threads i : Nat) : Nat := if i = threads - 1 then n - n / threads * (threads - 1) else n / threads

/-- What a session does to the parts of the buffers. -/
abbrev Core (w v : Nat) := Nat → Bufs w v → Bufs w v

/-- svole_kernel.cc L85-102, L121-140: the tasks with number `i` of both parties. They talk to each other only, on the `i`-th spawned link. -/
def task {w v : Nat} (core : Core w v) (threads i : Nat) (s : Bufs w v) : Bufs w v :=
  let oc := offOf s.c.length threads i
  let oa := offOf s.a.length threads i
  let ob := offOf s.a.length threads i
  let r := core i ⟨part s.c oc (lenOf s.c.length threads i), part s.a oa (lenOf s.a.length threads i), part s.b ob (lenOf s.a.length threads i)⟩
  ⟨put s.c oc r.c, put s.a oa r.a, put s.b ob r.b⟩

/-- svole_kernel.cc L75-108, L110-146 `eval_multithread` of both parties, for kernels that are set up with the right roles. `sched` is the order in which the tasks run. The futures of the
tasks are dropped, so a task that throws goes unnoticed; the session then leaves something else in its parts. -/
def evalMulti {w v : Nat} (core : Core w v) (sched : List Nat) (threads : Nat) (s : Bufs w v) : Option (Bufs w v) :=
  if threads ≥ 1 ∧ s.a.length = s.b.length then some (sched.foldl (fun s i => task core threads i s) s) else none

/-- svole_kernel.cc L153, L172: `step_num`. -/
def stepNum (n step : Nat) : Nat := (n + step - 1) / step

/-- svole_kernel.cc L155-157, L174-176: `local_step_size`. -/
def stepLen (n step i : Nat) : Nat := if i = stepNum n step - 1 then n - step * (stepNum n step - 1) else step

/-- svole_kernel.cc L154-161, L173-179: one round of `eval_streaming` of both parties. -/
def streamRound {w v : Nat} (core : Nat → Core w v) (sched : Nat → List Nat) (threads step i : Nat) (s : Bufs w v) : Option (Bufs w v) :=
  let oc := step * (stepNum s.c.length step - 1)
  let oa := step * i
  match evalMulti (core i) (sched i) threads
    ⟨part s.c oc (stepLen s.c.length step i), part s.a oa (stepLen s.a.length step i), part s.b oa (stepLen s.a.length step i)⟩ with
  | none => none
  | some r => some ⟨put s.c oc r.c, put s.a oa r.a, put s.b oa r.b⟩

/-- svole_kernel.cc L148-180 `eval_streaming` of both parties, on buffers of one length. -/
def evalStream {w v : Nat} (core : Nat → Core w v) (sched : Nat → List Nat) (threads step : Nat) (s : Bufs w v) : Option (Bufs w v) :=
  if s.a.length = s.b.length then (List.range (stepNum s.c.length step)).foldlM (fun s i => streamRound core sched threads step i s) s else none

/-! The checks before it. -/

/-- svole_kernel.h L37: the role. -/
inductive Role | sender | receiver
  deriving DecidableEq

/-- svole_kernel.h L70-76: `role_` and the variant `core_`; `inited_` is true when `core_` is set. -/
structure Kernel where
  role : Role
  core : Option Role
  deriving DecidableEq

/-- svole_kernel.h L40: the constructor. -/
def Kernel.new (r : Role) : Kernel := ⟨r, none⟩

/-- svole_kernel.cc L43-57 `init`. -/
def Kernel.init (k : Kernel) : Kernel := ⟨k.role, some k.role⟩

/-- svole_kernel.cc L61-62, L70-71, L78-79, L113-114: the checks of the sender's (`asRole = sender`) and the receiver's functions. -/
def Kernel.check (k : Kernel) (asRole : Role) : Bool := k.core == some asRole

/-! ### Specification -/

/-- Three buffers of one length. -/
def Bufs.Square {w v : Nat} (s : Bufs w v) : Prop := s.a.length = s.c.length ∧ s.b.length = s.c.length

/-- Sessions that keep the sizes of their parts: a span cannot change its size. -/
def Keeps {w v : Nat} (core : Core w v) : Prop := ∀ i s, (core i s).c.length = s.c.length ∧ (core i s).a.length = s.a.length ∧ (core i s).b.length = s.b.length

/-- Sessions that give a VOLE on parts of one size, up to `N`. -/
def Vole {w v : Nat} (mul : BitVec w → BitVec w → BitVec w) (delta : BitVec w) (N : Nat) (core : Core w v) : Prop :=
  ∀ i s, s.Square → s.c.length ≤ N → IsVole mul delta (core i s).c (core i s).a (core i s).b

/-! ### Lemmas -/

theorem part_length {α : Type} (buf : List α) (off len : Nat) (h : off + len ≤ buf.length) : (part buf off len).length = len := by
  unfold part
  rw [List.length_take, List.length_drop]
  omega

theorem put_length {α : Type} (buf x : List α) (off : Nat) (h : off + x.length ≤ buf.length) : (put buf off x).length = buf.length := by
  unfold put
  rw [List.length_append, List.length_append, List.length_take, List.length_drop]
  omega

theorem get_put {α : Type} (buf x : List α) (off k : Nat) (h : off + x.length ≤ buf.length) :
    (put buf off x)[k]? = if off ≤ k ∧ k < off + x.length then x[k - off]? else buf[k]? := by
  unfold put
  rw [List.append_assoc]
  have hl : (buf.take off).length = off := by
    rw [List.length_take]
    omega
  by_cases h1 : k < off
  · rw [List.getElem?_append_left (by omega), List.getElem?_take, if_pos h1, if_neg (by omega)]
  · rw [List.getElem?_append_right (by omega), hl]
    by_cases h2 : k < off + x.length
    · rw [List.getElem?_append_left (by omega), if_pos (by omega)]
    · rw [List.getElem?_append_right (by omega), List.getElem?_drop, if_neg (by omega)]
      congr 1
      omega

theorem get_part {α : Type} (buf : List α) (off len k : Nat) : (part buf off len)[k]? = if k < len then buf[off + k]? else none := by
  unfold part
  rw [List.getElem?_take]
  by_cases h : k < len
  · rw [if_pos h, if_pos h, List.getElem?_drop]
  · rw [if_neg h, if_neg h]

theorem part_put_same {α : Type} (buf x : List α) (off : Nat) (h : off + x.length ≤ buf.length) : part (put buf off x) off x.length = x := by
  apply List.ext_getElem?
  intro k
  rw [get_part, get_put _ _ _ _ h]
  by_cases hk : k < x.length
  · rw [if_pos hk, if_pos (by omega)]
    congr 1
    omega
  · rw [if_neg hk, List.getElem?_eq_none (by omega)]

theorem part_put_ne {α : Type} (buf x : List α) (off off' len : Nat) (h : off + x.length ≤ buf.length) (hd : off + x.length ≤ off' ∨ off' + len ≤ off) :
    part (put buf off x) off' len = part buf off' len := by
  apply List.ext_getElem?
  intro k
  rw [get_part, get_part]
  by_cases hk : k < len
  · rw [if_pos hk, if_pos hk, get_put _ _ _ _ h, if_neg (by omega)]
  · rw [if_neg hk, if_neg hk]

theorem off_succ (n threads i : Nat) (hi : i + 1 < threads) : offOf n threads i + lenOf n threads i = offOf n threads (i + 1) := by
  unfold offOf lenOf
  rw [if_neg (by omega), Nat.mul_succ]

theorem off_last (n threads : Nat) (ht : 1 ≤ threads) : offOf n threads (threads - 1) + lenOf n threads (threads - 1) = n := by
  unfold offOf lenOf
  rw [if_pos rfl]
  have h1 := Nat.div_mul_le_self n threads
  have h2 : n / threads * (threads - 1) ≤ n / threads * threads := Nat.mul_le_mul_left _ (by omega)
  omega

theorem off_mono (n threads i j : Nat) (hij : i < j) (hj : j < threads) : offOf n threads i + lenOf n threads i ≤ offOf n threads j := by
  unfold offOf lenOf
  rw [if_neg (by omega)]
  have h : n / threads * (i + 1) ≤ n / threads * j := Nat.mul_le_mul_left _ (by omega)
  rw [Nat.mul_succ] at h
  exact h

theorem off_le (n threads i : Nat) (hi : i < threads) : offOf n threads i + lenOf n threads i ≤ n := by
  have h := off_last n threads (by omega)
  by_cases hl : i = threads - 1
  · subst hl
    omega
  · have := off_mono n threads i (threads - 1) (by omega) (by omega)
    omega

theorem cover (n threads k : Nat) (ht : 1 ≤ threads) (hk : k < n) : ∃ i < threads, offOf n threads i ≤ k ∧ k < offOf n threads i + lenOf n threads i := by
  have key : ∀ m, m < threads → k < offOf n threads m + lenOf n threads m → ∃ i < threads, offOf n threads i ≤ k ∧ k < offOf n threads i + lenOf n threads i := by
    intro m
    induction m with
    | zero => exact fun h1 h2 => ⟨0, h1, by unfold offOf; omega, h2⟩
    | succ m ih =>
      intro h1 h2
      by_cases hc : offOf n threads (m + 1) ≤ k
      · exact ⟨m + 1, h1, hc, h2⟩
      · exact ih (by omega) (by rw [off_succ n threads m h1]; omega)
  exact key (threads - 1) (by omega) (by rw [off_last n threads ht]; exact hk)

theorem len_le (n threads i : Nat) (hi : i < threads) : lenOf n threads i ≤ n := by
  have := off_le n threads i hi
  omega

/-- The parts of thread `i`. -/
def parts {w v : Nat} (threads i : Nat) (s : Bufs w v) : Bufs w v :=
  ⟨part s.c (offOf s.c.length threads i) (lenOf s.c.length threads i), part s.a (offOf s.a.length threads i) (lenOf s.a.length threads i),
    part s.b (offOf s.a.length threads i) (lenOf s.a.length threads i)⟩

theorem parts_len {w v : Nat} (threads i : Nat) (s : Bufs w v) (hs : s.a.length = s.b.length) (hi : i < threads) :
    (parts threads i s).c.length = lenOf s.c.length threads i ∧ (parts threads i s).a.length = lenOf s.a.length threads i ∧ (parts threads i s).b.length = lenOf s.a.length threads i := by
  have h1 := off_le s.c.length threads i hi
  have h2 := off_le s.a.length threads i hi
  refine ⟨?_, ?_, ?_⟩
  · exact part_length _ _ _ h1
  · exact part_length _ _ _ h2
  · exact part_length _ _ _ (by omega)

theorem task_len {w v : Nat} (core : Core w v) (hk : Keeps core) (threads i : Nat) (s : Bufs w v) (hs : s.a.length = s.b.length) (hi : i < threads) :
    (task core threads i s).c.length = s.c.length ∧ (task core threads i s).a.length = s.a.length ∧ (task core threads i s).b.length = s.b.length := by
  obtain ⟨k1, k2, k3⟩ := hk i (parts threads i s)
  obtain ⟨p1, p2, p3⟩ := parts_len threads i s hs hi
  have h1 := off_le s.c.length threads i hi
  have h2 := off_le s.a.length threads i hi
  refine ⟨?_, ?_, ?_⟩
  · exact put_length _ _ _ (by show _ + (core i (parts threads i s)).c.length ≤ _; omega)
  · exact put_length _ _ _ (by show _ + (core i (parts threads i s)).a.length ≤ _; omega)
  · exact put_length _ _ _ (by show _ + (core i (parts threads i s)).b.length ≤ _; omega)

theorem task_parts_same {w v : Nat} (core : Core w v) (hk : Keeps core) (threads i : Nat) (s : Bufs w v) (hs : s.a.length = s.b.length) (hi : i < threads) :
    parts threads i (task core threads i s) = core i (parts threads i s) := by
  obtain ⟨k1, k2, k3⟩ := hk i (parts threads i s)
  obtain ⟨p1, p2, p3⟩ := parts_len threads i s hs hi
  obtain ⟨l1, l2, l3⟩ := task_len core hk threads i s hs hi
  have h1 := off_le s.c.length threads i hi
  have h2 := off_le s.a.length threads i hi
  unfold parts
  rw [l1, l2]
  have e1 : part (task core threads i s).c (offOf s.c.length threads i) (lenOf s.c.length threads i) = (core i (parts threads i s)).c := by
    rw [← p1, ← k1]
    exact part_put_same _ _ _ (by show _ + (core i (parts threads i s)).c.length ≤ _; omega)
  have e2 : part (task core threads i s).a (offOf s.a.length threads i) (lenOf s.a.length threads i) = (core i (parts threads i s)).a := by
    rw [← p2, ← k2]
    exact part_put_same _ _ _ (by show _ + (core i (parts threads i s)).a.length ≤ _; omega)
  have e3 : part (task core threads i s).b (offOf s.a.length threads i) (lenOf s.a.length threads i) = (core i (parts threads i s)).b := by
    rw [← p3, ← k3]
    exact part_put_same _ _ _ (by show _ + (core i (parts threads i s)).b.length ≤ _; omega)
  rw [e1, e2, e3]
  rfl

theorem task_parts_ne {w v : Nat} (core : Core w v) (hk : Keeps core) (threads i j : Nat) (s : Bufs w v) (hs : s.a.length = s.b.length) (hi : i < threads) (hj : j < threads) (hij : i ≠ j) :
    parts threads j (task core threads i s) = parts threads j s := by
  obtain ⟨k1, k2, k3⟩ := hk i (parts threads i s)
  obtain ⟨p1, p2, p3⟩ := parts_len threads i s hs hi
  obtain ⟨l1, l2, l3⟩ := task_len core hk threads i s hs hi
  have h1 := off_le s.c.length threads i hi
  have h2 := off_le s.a.length threads i hi
  have hd : ∀ n, offOf n threads i + lenOf n threads i ≤ offOf n threads j ∨ offOf n threads j + lenOf n threads j ≤ offOf n threads i := by
    intro n
    rcases Nat.lt_or_gt_of_ne hij with h | h
    · exact Or.inl (off_mono n threads i j h hj)
    · exact Or.inr (off_mono n threads j i h hi)
  unfold parts
  rw [l1, l2]
  have d1 := hd s.c.length
  have d2 := hd s.a.length
  have e1 : part (task core threads i s).c (offOf s.c.length threads j) (lenOf s.c.length threads j) = part s.c (offOf s.c.length threads j) (lenOf s.c.length threads j) :=
    part_put_ne _ _ _ _ _ (by show _ + (core i (parts threads i s)).c.length ≤ _; omega) (by show _ + (core i (parts threads i s)).c.length ≤ _ ∨ _; omega)
  have e2 : part (task core threads i s).a (offOf s.a.length threads j) (lenOf s.a.length threads j) = part s.a (offOf s.a.length threads j) (lenOf s.a.length threads j) :=
    part_put_ne _ _ _ _ _ (by show _ + (core i (parts threads i s)).a.length ≤ _; omega) (by show _ + (core i (parts threads i s)).a.length ≤ _ ∨ _; omega)
  have e3 : part (task core threads i s).b (offOf s.a.length threads j) (lenOf s.a.length threads j) = part s.b (offOf s.a.length threads j) (lenOf s.a.length threads j) :=
    part_put_ne _ _ _ _ _ (by show _ + (core i (parts threads i s)).b.length ≤ _; omega) (by show _ + (core i (parts threads i s)).b.length ≤ _ ∨ _; omega)
  rw [e1, e2, e3]

theorem fold_ok {w v : Nat} (core : Core w v) (hk : Keeps core) (threads : Nat) (sched : List Nat) (hnd : sched.Nodup) (hlt : ∀ i ∈ sched, i < threads) : ∀ s : Bufs w v, s.a.length = s.b.length →
    (sched.foldl (fun s i => task core threads i s) s).c.length = s.c.length ∧ (sched.foldl (fun s i => task core threads i s) s).a.length = s.a.length ∧
    (sched.foldl (fun s i => task core threads i s) s).b.length = s.b.length ∧
    ∀ j < threads, parts threads j (sched.foldl (fun s i => task core threads i s) s) = if j ∈ sched then core j (parts threads j s) else parts threads j s := by
  induction sched with
  | nil => exact fun s _ => ⟨rfl, rfl, rfl, fun j _ => by simp⟩
  | cons i is ih =>
    intro s hs
    rw [List.nodup_cons] at hnd
    have hi := hlt i (by simp)
    obtain ⟨l1, l2, l3⟩ := task_len core hk threads i s hs hi
    obtain ⟨q1, q2, q3, q4⟩ := ih hnd.2 (fun j hj => hlt j (by simp [hj])) (task core threads i s) (by omega)
    rw [List.foldl_cons]
    refine ⟨by omega, by omega, by omega, fun j hj => ?_⟩
    rw [q4 j hj]
    by_cases hij : i = j
    · subst hij
      rw [if_neg hnd.1, if_pos (by simp), task_parts_same core hk threads i s hs hi]
    · rw [task_parts_ne core hk threads i j s hs hi hj hij]
      apply if_congr _ rfl rfl
      have : ¬ j = i := fun h => hij h.symm
      simp [this]

theorem eq_of_parts {α : Type} (x y : List α) (threads : Nat) (ht : 1 ≤ threads) (hl : x.length = y.length)
    (h : ∀ i < threads, part x (offOf x.length threads i) (lenOf x.length threads i) = part y (offOf x.length threads i) (lenOf x.length threads i)) : x = y := by
  apply List.ext_getElem?
  intro k
  by_cases hk : k < x.length
  · obtain ⟨i, hi, h1, h2⟩ := cover x.length threads k ht hk
    have e := congrArg (fun l => l[k - offOf x.length threads i]?) (h i hi)
    simp only [get_part] at e
    rw [if_pos (by omega), if_pos (by omega)] at e
    have e2 : offOf x.length threads i + (k - offOf x.length threads i) = k := by omega
    rw [e2] at e
    exact e
  · rw [List.getElem?_eq_none (by omega), List.getElem?_eq_none (by omega)]

theorem getD_part {m : Nat} (x : List (BitVec m)) (off len k : Nat) (h1 : off ≤ k) (h2 : k < off + len) : (part x off len).getD (k - off) 0 = x.getD k 0 := by
  rw [List.getD_eq_getElem?_getD, List.getD_eq_getElem?_getD, get_part, if_pos (by omega)]
  congr 2
  omega

/-! ### C118 -/

/-- C118. The sender's functions run on an initialised sender only, the receiver's on an initialised receiver only. -/
theorem C118_roles (r r' : Role) : (Kernel.new r).check r' = false ∧ ((Kernel.new r).init.check r' = true ↔ r' = r) := by
  cases r <;> cases r' <;> decide

/-- C118. Multi-threaded evaluation on buffers of one length `n ≤ N`, with any number of threads (also more than `n`) and the tasks run in any order: the result has the sizes of the
buffers, is a VOLE under `delta` if every session gives a VOLE on its parts, and does not depend on the order. Zero threads, or receiver buffers of different sizes, throw. -/
theorem C118_multithread {w v : Nat} (mul : BitVec w → BitVec w → BitVec w) (delta : BitVec w) (N : Nat) (core : Core w v) (hk : Keeps core) (hv : Vole mul delta N core) (threads : Nat)
    (s : Bufs w v) :
    (1 ≤ threads → s.Square → s.c.length ≤ N → ∃ r : Bufs w v, r.c.length = s.c.length ∧ IsVole mul delta r.c r.a r.b ∧
      ∀ sched, sched.Perm (List.range threads) → evalMulti core sched threads s = some r) ∧
    (∀ sched, threads = 0 ∨ s.a.length ≠ s.b.length → evalMulti core sched threads s = none) := by
  constructor
  · rintro ht ⟨hq1, hq2⟩ hN
    have hs : s.a.length = s.b.length := by omega
    obtain ⟨f1, f2, f3, f4⟩ := fold_ok core hk threads (List.range threads) List.nodup_range (fun i hi => List.mem_range.mp hi) s hs
    generalize hr : (List.range threads).foldl (fun s i => task core threads i s) s = r at *
    refine ⟨r, f1, ⟨by omega, by omega, fun k hkk => ?_⟩, ?_⟩
    · obtain ⟨i, hi, o1, o2⟩ := cover r.c.length threads k ht hkk
      have hp := f4 i hi
      rw [if_pos (List.mem_range.mpr hi)] at hp
      obtain ⟨p1, p2, p3⟩ := parts_len threads i s hs hi
      have hl := len_le s.c.length threads i hi
      obtain ⟨v1, v2, v3⟩ := hv i (parts threads i s) ⟨by rw [p2, p1, hq1], by rw [p3, p1, hq1]⟩ (by omega)
      rw [← hp] at v1 v2 v3
      obtain ⟨r1, r2, r3⟩ := parts_len threads i r (by omega) hi
      have h3 := v3 (k - offOf r.c.length threads i) (by omega)
      have ea : r.a.length = r.c.length := by omega
      have e1 : (parts threads i r).c.getD (k - offOf r.c.length threads i) 0 = r.c.getD k 0 := getD_part _ _ _ _ o1 o2
      have e2 : (parts threads i r).a.getD (k - offOf r.c.length threads i) 0 = r.a.getD k 0 := by
        unfold parts
        rw [ea]
        exact getD_part _ _ _ _ o1 o2
      have e3 : (parts threads i r).b.getD (k - offOf r.c.length threads i) 0 = r.b.getD k 0 := by
        unfold parts
        rw [ea]
        exact getD_part _ _ _ _ o1 o2
      rw [e1, e2, e3] at h3
      exact h3
    · intro sched hsch
      unfold evalMulti
      rw [if_pos ⟨ht, hs⟩]
      congr 1
      obtain ⟨g1, g2, g3, g4⟩ := fold_ok core hk threads sched (hsch.nodup_iff.mpr List.nodup_range) (fun i hi => List.mem_range.mp (hsch.mem_iff.mp hi)) s hs
      generalize sched.foldl (fun s i => task core threads i s) s = q at *
      have hsame : ∀ i < threads, parts threads i q = parts threads i r := by
        intro i hi
        rw [g4 i hi, f4 i hi, if_pos (hsch.mem_iff.mpr (List.mem_range.mpr hi)), if_pos (List.mem_range.mpr hi)]
      have ec : q.c = r.c := eq_of_parts _ _ threads ht (by omega) (fun i hi => by
        have := congrArg Bufs.c (hsame i hi)
        simp only [parts] at this
        rw [show r.c.length = q.c.length by omega] at this
        exact this)
      have ea : q.a = r.a := eq_of_parts _ _ threads ht (by omega) (fun i hi => by
        have := congrArg Bufs.a (hsame i hi)
        simp only [parts] at this
        rw [show r.a.length = q.a.length by omega] at this
        exact this)
      have eb : q.b = r.b := eq_of_parts _ _ threads ht (by omega) (fun i hi => by
        have := congrArg Bufs.b (hsame i hi)
        simp only [parts] at this
        rw [show r.a.length = q.b.length by omega, show q.a.length = q.b.length by omega] at this
        exact this)
      cases q
      cases r
      simp only at ec ea eb
      rw [ec, ea, eb]
  · rintro sched h
    unfold evalMulti
    rw [if_neg (by omega)]

/-- The kernel does not report failed sessions: if session `j` leaves its parts as they were because it threw, the call still returns, with the old contents in that part. -/
theorem C118_swallowed_violated {w v : Nat} (core : Core w v) (hk : Keeps core) (threads j : Nat) (hj : j < threads) (s : Bufs w v) (hs : s.Square)
    (hthrow : core j (parts threads j s) = parts threads j s) (sched : List Nat) (hsch : sched.Perm (List.range threads)) :
    ∃ r, evalMulti core sched threads s = some r ∧ part r.c (offOf s.c.length threads j) (lenOf s.c.length threads j) = part s.c (offOf s.c.length threads j) (lenOf s.c.length threads j) := by
  obtain ⟨hq1, hq2⟩ := hs
  obtain ⟨g1, g2, g3, g4⟩ := fold_ok core hk threads sched (hsch.nodup_iff.mpr List.nodup_range) (fun i hi => List.mem_range.mp (hsch.mem_iff.mp hi)) s (by omega)
  refine ⟨_, by unfold evalMulti; rw [if_pos ⟨by omega, by omega⟩], ?_⟩
  have h := g4 j hj
  rw [if_pos (hsch.mem_iff.mpr (List.mem_range.mpr hj)), hthrow] at h
  have := congrArg Bufs.c h
  simp only [parts, g1] at this
  exact this

theorem stepNum_one (n step : Nat) (h0 : 0 < n) (h : n ≤ step) : stepNum n step = 1 := by
  unfold stepNum
  apply Nat.div_eq_of_lt_le <;> omega

theorem put_all {α : Type} (x y : List α) (h : y.length = x.length) : put x 0 y = y := by
  unfold put
  rw [Nat.zero_add, h, List.drop_of_length_le (Nat.le_refl _)]
  simp

theorem part_all {α : Type} (x : List α) : part x 0 x.length = x := by
  unfold part
  simp

/-- C118, in part. Streaming evaluation of at most `step_size` VOLEs, with any number of threads and any schedule, gives a VOLE. Missing: more than `step_size` VOLEs, for which the sender
writes to the wrong place (`C118_streaming_violated`). -/
theorem C118_streaming_partial {w v : Nat} (mul : BitVec w → BitVec w → BitVec w) (delta : BitVec w) (N : Nat) (core : Nat → Core w v) (hk : ∀ k, Keeps (core k)) (hv : ∀ k, Vole mul delta N (core k))
    (threads step : Nat) (ht : 1 ≤ threads) (s : Bufs w v) (hs : s.Square) (hN : s.c.length ≤ N) (hstep : 0 < step) (h : s.c.length ≤ step) (sched : Nat → List Nat)
    (hsch : ∀ k, (sched k).Perm (List.range threads)) :
    ∃ r, evalStream core sched threads step s = some r ∧ r.c.length = s.c.length ∧ IsVole mul delta r.c r.a r.b := by
  obtain ⟨hq1, hq2⟩ := hs
  unfold evalStream
  rw [if_pos (by omega)]
  by_cases h0 : s.c.length = 0
  · refine ⟨s, ?_, rfl, by omega, by omega, fun k hk => by omega⟩
    have : stepNum s.c.length step = 0 := by
      unfold stepNum
      exact Nat.div_eq_of_lt (by omega)
    rw [this]
    rfl
  · obtain ⟨r, r1, r2, r3⟩ := (C118_multithread mul delta N (core 0) (hk 0) (hv 0) threads s).1 ht ⟨hq1, hq2⟩ hN
    have hone := stepNum_one s.c.length step (by omega) h
    have hlen : stepLen s.c.length step 0 = s.c.length := by
      unfold stepLen
      rw [hone]
      simp
    refine ⟨r, ?_, r1, r2⟩
    have hround : streamRound core sched threads step 0 s = some r := by
      unfold streamRound
      simp only [hone, Nat.sub_self, Nat.mul_zero]
      have e2 : part s.a 0 s.c.length = s.a := by rw [← hq1]; exact part_all _
      have e3 : part s.b 0 s.c.length = s.b := by rw [← hq2]; exact part_all _
      rw [hq1, hlen, part_all, e2, e3, r3 _ (hsch 0)]
      simp only
      obtain ⟨v1, v2, -⟩ := r2
      rw [put_all _ _ (by omega), put_all _ _ (by omega), put_all _ _ (by omega)]
    rw [hone, List.range_one]
    simp only [List.foldlM_cons, List.foldlM_nil]
    rw [hround]
    rfl

theorem evalMulti_len {w v : Nat} (core : Core w v) (hk : Keeps core) (threads : Nat) (sched : List Nat) (hsch : sched.Perm (List.range threads)) (s r : Bufs w v) (h : evalMulti core sched threads s = some r) :
    r.c.length = s.c.length ∧ r.a.length = s.a.length ∧ r.b.length = s.b.length := by
  unfold evalMulti at h
  by_cases hc : threads ≥ 1 ∧ s.a.length = s.b.length
  · rw [if_pos hc] at h
    obtain rfl := Option.some.inj h
    obtain ⟨g1, g2, g3, -⟩ := fold_ok core hk threads sched (hsch.nodup_iff.mpr List.nodup_range) (fun i hi => List.mem_range.mp (hsch.mem_iff.mp hi)) s hc.2
    exact ⟨g1, g2, g3⟩
  · rw [if_neg hc] at h
    exact absurd h (by simp)

/-- Streaming evaluation writes the sender's part of every round to the place of the last one: whatever the sessions do, the elements of `c` before it keep their old contents. -/
theorem C118_streaming_violated {w v : Nat} (core : Nat → Core w v) (hk : ∀ k, Keeps (core k)) (threads step : Nat) (s : Bufs w v) (hstep : 0 < step) (sched : Nat → List Nat)
    (hsch : ∀ k, (sched k).Perm (List.range threads)) (r : Bufs w v) (hr : evalStream core sched threads step s = some r) :
    ∀ k < step * (stepNum s.c.length step - 1), r.c[k]? = s.c[k]? := by
  unfold evalStream at hr
  by_cases hc : s.a.length = s.b.length
  · rw [if_pos hc] at hr
    generalize hn : s.c.length = n at *
    have key : ∀ (l : List Nat) (q : Bufs w v), q.c.length = n → l.foldlM (fun s i => streamRound core sched threads step i s) q = some r →
        ∀ k < step * (stepNum n step - 1), r.c[k]? = q.c[k]? := by
      intro l
      induction l with
      | nil =>
        intro q _ hq k _
        rw [List.foldlM_nil] at hq
        obtain rfl := Option.some.inj hq
        rfl
      | cons i is ih =>
        intro q hqn hq k hkk
        rw [List.foldlM_cons] at hq
        cases hround : streamRound core sched threads step i q with
        | none => rw [hround] at hq; exact absurd hq (by simp)
        | some q' =>
          rw [hround] at hq
          have hq' : is.foldlM (fun s i => streamRound core sched threads step i s) q' = some r := hq
          unfold streamRound at hround
          simp only [hqn] at hround
          cases hm : evalMulti (core i) (sched i) threads ⟨part q.c (step * (stepNum n step - 1)) (stepLen n step i), part q.a (step * i) (stepLen q.a.length step i),
              part q.b (step * i) (stepLen q.a.length step i)⟩ with
          | none => rw [hm] at hround; exact absurd hround (by simp)
          | some m =>
            rw [hm] at hround
            obtain rfl := Option.some.inj hround
            obtain ⟨m1, -, -⟩ := evalMulti_len (core i) (hk i) threads (sched i) (hsch i) _ _ hm
            simp only at m1
            have hoff : step * (stepNum n step - 1) ≤ n := by
              unfold stepNum
              have h1 := Nat.div_mul_le_self (n + step - 1) step
              rw [Nat.mul_comm] at h1
              have h2 : step * ((n + step - 1) / step - 1) = step * ((n + step - 1) / step) - step := by rw [Nat.mul_sub, Nat.mul_one]
              omega
            have hb : step * (stepNum n step - 1) + m.c.length ≤ q.c.length := by
              rw [m1]
              unfold part
              rw [List.length_take, List.length_drop]
              omega
            have hget : (put q.c (step * (stepNum n step - 1)) m.c)[k]? = q.c[k]? := by
              rw [get_put _ _ _ _ hb, if_neg (by omega)]
            have hlen : (put q.c (step * (stepNum n step - 1)) m.c).length = n := by rw [put_length _ _ _ hb, hqn]
            rw [ih _ hlen hq' k hkk]
            exact hget
    exact key _ s hn hr
  · rw [if_neg hc] at hr
    exact absurd hr (by simp)

/-- A session of the protocol with a Silver code, with randomness of its own. -/
def silverCore {w v : Nat} (I : Inst w v) (conv : Ggm.B → BitVec w) (e : Nat → Env w) (weight : Nat) (starts : Nat → List Nat) (noise : Nat) : Core w v := fun i s =>
  match runSilver I.F.mul I.F.inner I.G.inner conv (e i) weight starts noise false s.c s.a s.b with
  | none => s
  | some (c, a, b) => ⟨c, a, b⟩

/-- C118. With the silent VOLE protocol and a Silver code, as `init` sets it up by default: multi-threaded evaluation of up to `N` VOLEs gives a VOLE, whatever the buffers held. Here the
sessions are those of C80, each with its own randomness and all with the `delta` of the kernel. -/
theorem C118_silver_partial {w v : Nat} (I : Inst w v) (conv : Ggm.B → BitVec w) (e : Nat → Env w) (delta : Ggm.B) (hcot : ∀ k i, (e k).blk i true = (e k).blk i false ^^^ (e k).otDelta)
    (hdelta : ∀ k, (e k).otDelta = delta) (weight : Nat) (hw : weight = 5 ∨ weight = 11) (starts : Nat → List Nat) (hst : ∀ n, (starts n).length = weight) (noise N : Nat) (hn : 0 < noise)
    (hsize : ∀ n ≤ N, mpSizeSilver weight noise n ≤ 2 ^ 30) (threads : Nat) (ht : 1 ≤ threads) (c b : List (BitVec w)) (a : List (BitVec v)) (hab : a.length = c.length) (hbb : b.length = c.length)
    (hN : c.length ≤ N) :
    ∃ f : Core w v, (∀ i s, s.Square → s.c.length ≤ N → runSilver I.F.mul I.F.inner I.G.inner conv (e i) weight starts noise false s.c s.a s.b = some ((f i s).c, (f i s).a, (f i s).b)) ∧
      ∃ r, (∀ sched, sched.Perm (List.range threads) → evalMulti f sched threads ⟨c, a, b⟩ = some r) ∧ r.c.length = c.length ∧ IsVole I.F.mul (delta.setWidth w) r.c r.a r.b := by
  have hrun : ∀ i (s : Bufs w v), s.Square → s.c.length ≤ N → ∃ rc ra rb, runSilver I.F.mul I.F.inner I.G.inner conv (e i) weight starts noise false s.c s.a s.b = some (rc, ra, rb) ∧
      rc.length = s.c.length ∧ IsVole I.F.mul (delta.setWidth w) rc ra rb := by
    rintro i s ⟨q1, q2⟩ hl
    rw [← hdelta i]
    exact C80_silver_partial I conv (e i) (hcot i) weight hw starts hst noise false hn (by simp) s.c s.a s.b q1 q2 (hsize _ hl)
  classical
  let f : Core w v := fun i s => if s.Square ∧ s.c.length ≤ N then silverCore I conv e weight starts noise i s else s
  have hf : ∀ i s, s.Square → s.c.length ≤ N → runSilver I.F.mul I.F.inner I.G.inner conv (e i) weight starts noise false s.c s.a s.b = some ((f i s).c, (f i s).a, (f i s).b) ∧
      (f i s).c.length = s.c.length ∧ IsVole I.F.mul (delta.setWidth w) (f i s).c (f i s).a (f i s).b := by
    intro i s h1 h2
    obtain ⟨rc, ra, rb, e1, e2, e3⟩ := hrun i s h1 h2
    have hfi : f i s = ⟨rc, ra, rb⟩ := by
      show (if s.Square ∧ s.c.length ≤ N then silverCore I conv e weight starts noise i s else s) = _
      rw [if_pos ⟨h1, h2⟩]
      unfold silverCore
      rw [e1]
    rw [hfi]
    exact ⟨e1, e2, e3⟩
  have hkeep : Keeps f := by
    intro i s
    by_cases hc : s.Square ∧ s.c.length ≤ N
    · obtain ⟨-, g2, g3⟩ := hf i s hc.1 hc.2
      obtain ⟨v1, v2, -⟩ := g3
      obtain ⟨q1, q2⟩ := hc.1
      exact ⟨g2, by omega, by omega⟩
    · have hfi : f i s = s := if_neg hc
      rw [hfi]
      exact ⟨rfl, rfl, rfl⟩
  refine ⟨f, fun i s h1 h2 => (hf i s h1 h2).1, ?_⟩
  obtain ⟨r, r1, r2, r3⟩ := (C118_multithread I.F.mul (delta.setWidth w) N f hkeep (fun i s h1 h2 => (hf i s h1 h2).2.2) threads ⟨c, a, b⟩).1 ht ⟨hab, hbb⟩ hN
  exact ⟨r, r3, r1, r2⟩

/-- Sessions that return zeros are VOLEs. -/
def zeroCore (w v : Nat) : Core w v := fun _ s => ⟨List.replicate s.c.length 0, List.replicate s.a.length 0, List.replicate s.b.length 0⟩

theorem zeroCore_keeps (w v : Nat) : Keeps (zeroCore w v) := fun _ s => by
  unfold zeroCore
  simp

/-- Ten VOLEs with four threads, in an unusual order. -/
example : (evalMulti (zeroCore 8 8) [2, 0, 3, 1] 4 ⟨List.replicate 10 7, List.replicate 10 7, List.replicate 10 7⟩).map (fun r => (r.c, r.a, r.b)) =
    some (List.replicate 10 0, List.replicate 10 0, List.replicate 10 0) := by decide +kernel

/-- Streaming five VOLEs in steps of two: good sessions, but the first four elements of the sender keep the old contents, so that the result is not a VOLE. -/
theorem C118_streaming_witness_violated : ∃ r, evalStream (fun _ => zeroCore 8 8) (fun _ => [0]) 1 2 ⟨List.replicate 5 7, List.replicate 5 7, List.replicate 5 7⟩ = some r ∧
    ¬ IsVole (fun x _ => x) 1 r.c r.a r.b := by
  refine ⟨⟨[7, 7, 7, 7, 0], [0, 0, 0, 0, 0], [0, 0, 0, 0, 0]⟩, ?_, ?_⟩
  · rfl
  · rintro ⟨-, -, h⟩
    exact absurd (h 0 (by decide)) (by decide)

/-- The hypotheses of the Silver theorem hold for the kernel's element types, 40 VOLEs on 3 threads, noise weight 2. -/
example : ∃ f : Core 128 64, ∃ r : Bufs 128 64, (∀ sched, sched.Perm (List.range 3) → evalMulti f sched 3 ⟨List.replicate 40 1, List.replicate 40 2, List.replicate 40 3⟩ = some r) ∧ r.c.length = 40 := by
  obtain ⟨f, -, r, h1, h2, -⟩ := C118_silver_partial instMixed id
    (fun k => ⟨7, id, true, id, id, fun _ => 0, fun i b => BitVec.ofNat 128 (i + k) ^^^ (if b then 5 else 0), 5, fun _ => 1, [3, 1, 2], [true], 9⟩) 5 (fun k i => by simp) (fun _ => rfl) 11
    (Or.inr rfl) (fun _ => List.replicate 11 0) (fun _ => by simp) 2 40 (by decide) (by decide +kernel) 3 (by decide) (List.replicate 40 1) (List.replicate 40 3) (List.replicate 40 2)
    (by simp) (by simp) (by simp)
  exact ⟨f, r, h1, by simpa using h2⟩

end Yacl.SvoleKernel
