import Verif.Kernel.ScriptsModel
import Verif.Link.CollectiveModel
import Mathlib.Tactic.Ring
import Mathlib.Tactic.Linarith

/-! C144: two parties running the same session of OT and VOLE protocols never hang, never read a message for another, and
leave nothing unread, however their calls interleave. -/

namespace Yacl.Scripts

/-! ### Specification -/

/-- Whatever the scheduler did so far: no party has read a wrong message, somebody can go on unless all is done, and after
`|p| + |q|` calls, the most there can be, all is done. -/
def Safe (p q : List Act) : Prop :=
  ∀ n s, Run n ⟨p, q, [], []⟩ s →
    (∀ who, step who s ≠ .mismatch) ∧ (Done s ∨ ∃ who t, step who s = .ok t) ∧
    n ≤ p.length + q.length ∧ (n = p.length + q.length → Done s)

/-! ### The generic argument -/

theorem act_ok {l i o r i' o'} (h : act l i o = .ok (r, i', o')) :
    (∃ m, l = .send m :: r ∧ i' = i ∧ o' = o ++ [m]) ∨ (∃ m, l = .recv m :: r ∧ i = m :: i' ∧ o' = o) := by
  match l, i, h with
  | .send m :: r₀, i, h => simp only [act, Res.ok.injEq, Prod.mk.injEq] at h; obtain ⟨rfl, rfl, rfl⟩ := h; exact .inl ⟨m, rfl, rfl, rfl⟩
  | .recv m :: r₀, x :: i, h =>
    simp only [act] at h
    split at h
    · next hx =>
      simp only [Res.ok.injEq, Prod.mk.injEq] at h
      obtain ⟨rfl, rfl, rfl⟩ := h
      exact .inr ⟨m, rfl, by rw [hx], rfl⟩
    · exact absurd h (by simp)

/-- More messages in the inbox and any other outbox do not change what a call that returned does. -/
theorem act_mono {l i o r i' o'} (h : act l i o = .ok (r, i', o')) (x y : List Msg) :
    ∃ e, o' = o ++ e ∧ act l (i ++ x) y = .ok (r, i' ++ x, y ++ e) := by
  rcases act_ok h with ⟨m, rfl, rfl, rfl⟩ | ⟨m, rfl, rfl, rfl⟩
  · exact ⟨[m], rfl, by simp [act]⟩
  · exact ⟨[], by simp, by simp [act]⟩

theorem step_true {s t} : step true s = .ok t ↔ ∃ r i o, act s.p s.toP s.toQ = .ok (r, i, o) ∧ t = ⟨r, s.q, i, o⟩ := by
  simp only [step, if_true]
  constructor
  · intro h
    split at h <;> simp_all
  · rintro ⟨r, i, o, h, rfl⟩
    simp [h]

theorem step_false {s t} : step false s = .ok t ↔ ∃ r i o, act s.q s.toQ s.toP = .ok (r, i, o) ∧ t = ⟨s.p, r, o, i⟩ := by
  simp only [step, Bool.false_eq_true, if_false]
  constructor
  · intro h
    split at h <;> simp_all
  · rintro ⟨r, i, o, h, rfl⟩
    simp [h]

/-- Calls of different parties commute. -/
theorem diamond {s a b} (ha : step true s = .ok a) (hb : step false s = .ok b) :
    ∃ c, step false a = .ok c ∧ step true b = .ok c := by
  obtain ⟨r, i, o, h, rfl⟩ := step_true.1 ha
  obtain ⟨r', i', o', h', rfl⟩ := step_false.1 hb
  rcases act_ok h with ⟨m, h1, h2, h3⟩ | ⟨m, h1, h2, h3⟩ <;> rcases act_ok h' with ⟨m', k1, k2, k3⟩ | ⟨m', k1, k2, k3⟩ <;>
    subst h3 k3
  · subst h2 k2
    exact ⟨⟨r, r', s.toP ++ [m'], s.toQ ++ [m]⟩, step_false.2 ⟨r', s.toQ ++ [m], _, by rw [k1]; rfl, rfl⟩,
      step_true.2 ⟨r, s.toP ++ [m'], _, by rw [h1]; rfl, rfl⟩⟩
  · subst h2
    exact ⟨⟨r, r', s.toP, i' ++ [m]⟩, step_false.2 ⟨r', i' ++ [m], _, by simp only [k1, k2]; simp [act], rfl⟩,
      step_true.2 ⟨r, s.toP, _, by rw [h1]; rfl, rfl⟩⟩
  · subst k2
    exact ⟨⟨r, r', i ++ [m'], s.toQ⟩, step_false.2 ⟨r', s.toQ, _, by rw [k1]; rfl, rfl⟩,
      step_true.2 ⟨r, i ++ [m'], _, by simp only [h1, h2]; simp [act], rfl⟩⟩
  · exact ⟨⟨r, r', i, i'⟩, step_false.2 ⟨r', i', _, by simp only [k1, k2]; simp [act], rfl⟩,
      step_true.2 ⟨r, i, _, by simp only [h1, h2]; simp [act], rfl⟩⟩

def Completes (s : Net) : Prop := ∃ n t, Run n s t ∧ Done t

theorem completes_step {s s'} (who : Bool) (h : Completes s) (hs : step who s = .ok s') : Completes s' := by
  obtain ⟨n, t, hr, hd⟩ := h
  induction hr generalizing s' with
  | nil s =>
    obtain ⟨hp, hq, -, -⟩ := hd
    cases who
    · obtain ⟨_, _, _, h, -⟩ := step_false.1 hs; simp [hq, act] at h
    · obtain ⟨_, _, _, h, -⟩ := step_true.1 hs; simp [hp, act] at h
  | @cons n s a u w ha hr ih =>
    rcases eq_or_ne w who with rfl | hw
    · rw [ha] at hs
      cases hs
      exact ⟨n, u, hr, hd⟩
    · obtain ⟨c, h1, h2⟩ : ∃ c, step who a = .ok c ∧ step w s' = .ok c := by
        cases w <;> cases who <;> simp at hw
        · obtain ⟨c, h1, h2⟩ := diamond hs ha; exact ⟨c, h2, h1⟩
        · exact diamond ha hs
      obtain ⟨k, v, hk, hv⟩ := ih h1 hd
      exact ⟨k + 1, v, .cons w h2 hk, hv⟩

theorem completes_run {n s t} (h : Completes s) (hr : Run n s t) : Completes t := by
  induction hr with
  | nil => exact h
  | cons who hs _ ih => exact ih (completes_step who h hs)

theorem act_mismatch {l i o} (h : act l i o = .mismatch) : ∃ m r x i', l = .recv m :: r ∧ i = x :: i' ∧ x ≠ m := by
  match l, i, h with
  | .recv m :: r, x :: i, h =>
    simp only [act] at h
    split at h
    · exact absurd h (by simp)
    · next hx => exact ⟨m, r, x, i, rfl, rfl, hx⟩

/-- A wrong message in front of a `Recv` stays there. -/
theorem mismatch_persists {s t} (w v : Bool) (h : step w s = .mismatch) (hs : step v s = .ok t) : step w t = .mismatch := by
  cases w <;> cases v
  · rw [h] at hs; exact absurd hs (by simp)
  · have hm : act s.q s.toQ s.toP = .mismatch := by
      simp only [step, Bool.false_eq_true, if_false] at h
      split at h <;> simp_all
    obtain ⟨m, r, x, i', h1, h2, h3⟩ := act_mismatch hm
    obtain ⟨r', i, o, ha, rfl⟩ := step_true.1 hs
    rcases act_ok ha with ⟨m', _, _, rfl⟩ | ⟨m', _, _, rfl⟩ <;> simp [step, h1, h2, act, h3]
  · have hm : act s.p s.toP s.toQ = .mismatch := by
      simp only [step, if_true] at h
      split at h <;> simp_all
    obtain ⟨m, r, x, i', h1, h2, h3⟩ := act_mismatch hm
    obtain ⟨r', i, o, ha, rfl⟩ := step_false.1 hs
    rcases act_ok ha with ⟨m', _, _, rfl⟩ | ⟨m', _, _, rfl⟩ <;> simp [step, h1, h2, act, h3]
  · rw [h] at hs; exact absurd hs (by simp)

theorem completes_no_mismatch {s} (h : Completes s) (w : Bool) : step w s ≠ .mismatch := by
  obtain ⟨n, t, hr, hd⟩ := h
  induction hr with
  | nil s =>
    obtain ⟨hp, hq, -, -⟩ := hd
    cases w <;> simp [step, hp, hq, act]
  | cons v hs _ ih => exact fun hm => ih hd (mismatch_persists w v hm hs)

theorem completes_progress {s} (h : Completes s) : Done s ∨ ∃ who t, step who s = .ok t := by
  obtain ⟨n, t, hr, hd⟩ := h
  cases hr with
  | nil => exact .inl hd
  | cons who hs _ => exact .inr ⟨who, _, hs⟩

theorem step_length {w s t} (h : step w s = .ok t) : s.p.length + s.q.length = t.p.length + t.q.length + 1 := by
  cases w
  · obtain ⟨r, i, o, ha, rfl⟩ := step_false.1 h
    rcases act_ok ha with ⟨m, h1, _, _⟩ | ⟨m, h1, _, _⟩ <;> simp [h1] <;> omega
  · obtain ⟨r, i, o, ha, rfl⟩ := step_true.1 h
    rcases act_ok ha with ⟨m, h1, _, _⟩ | ⟨m, h1, _, _⟩ <;> simp [h1] <;> omega

theorem run_length {n s t} (h : Run n s t) : s.p.length + s.q.length = t.p.length + t.q.length + n := by
  induction h with
  | nil => rfl
  | cons w hs _ ih => have := step_length hs; omega

/-- One complete schedule is enough: then every schedule is. -/
theorem safe_iff (p q : List Act) : Safe p q ↔ Completes ⟨p, q, [], []⟩ := by
  constructor
  · intro h
    have key : ∀ k n s, Run n ⟨p, q, [], []⟩ s → s.p.length + s.q.length = k → Completes s := by
      intro k
      induction k with
      | zero =>
        intro n s hr hk
        have hl := run_length hr
        simp only at hl
        exact ⟨0, s, .nil s, (h n s hr).2.2.2 (by omega)⟩
      | succ k ih =>
        intro n s hr hk
        rcases (h n s hr).2.1 with hd | ⟨w, t, ht⟩
        · exact ⟨0, s, .nil s, hd⟩
        · have snoc : ∀ {n a b}, Run n a b → ∀ {c}, step w b = .ok c → Run (n + 1) a c := by
            intro n a b hab
            induction hab with
            | nil => exact fun hc => .cons w hc (.nil _)
            | cons v hv _ ih => exact fun hc => .cons v hv (ih hc)
          obtain ⟨m, u, hu, hd⟩ := ih (n + 1) t (snoc hr ht) (by have := step_length ht; omega)
          exact ⟨m + 1, u, .cons w ht hu, hd⟩
    exact key _ 0 _ (.nil _) rfl
  · intro h n s hr
    have hc := completes_run h hr
    have hl := run_length hr
    simp only at hl
    refine ⟨completes_no_mismatch hc, completes_progress hc, by omega, fun hn => ?_⟩
    rcases completes_progress hc with hd | ⟨w, t, ht⟩
    · exact hd
    · have := step_length ht; omega

/-! ### Joining scripts -/

theorem act_append {l i o r i' o'} (h : act l i o = .ok (r, i', o')) (x : List Act) : act (l ++ x) i o = .ok (r ++ x, i', o') := by
  rcases act_ok h with ⟨m, rfl, rfl, rfl⟩ | ⟨m, rfl, rfl, rfl⟩ <;> simp [act]

theorem run_append {n s t} (h : Run n s t) (x y : List Act) :
    Run n ⟨s.p ++ x, s.q ++ y, s.toP, s.toQ⟩ ⟨t.p ++ x, t.q ++ y, t.toP, t.toQ⟩ := by
  induction h with
  | nil => exact .nil _
  | cons w hs _ ih =>
    refine .cons w ?_ ih
    cases w
    · obtain ⟨r, i, o, ha, rfl⟩ := step_false.1 hs
      exact step_false.2 ⟨r ++ y, i, o, act_append ha y, rfl⟩
    · obtain ⟨r, i, o, ha, rfl⟩ := step_true.1 hs
      exact step_true.2 ⟨r ++ x, i, o, act_append ha x, rfl⟩

theorem run_trans {n m s t u} (h : Run n s t) (h' : Run m t u) : ∃ k, Run k s u := by
  induction h with
  | nil => exact ⟨m, h'⟩
  | cons w hs _ ih => obtain ⟨k, hk⟩ := ih h'; exact ⟨k + 1, .cons w hs hk⟩

theorem safe_append {p q p' q'} (h : Safe p q) (h' : Safe p' q') : Safe (p ++ p') (q ++ q') := by
  rw [safe_iff] at *
  obtain ⟨n, t, hr, hp, hq, h1, h2⟩ := h
  obtain ⟨m, u, hr', hd⟩ := h'
  have := run_append hr p' q'
  simp only [hp, hq, h1, h2, List.nil_append] at this
  obtain ⟨k, hk⟩ := run_trans this hr'
  exact ⟨k, u, hk, hd⟩

theorem safe_nil : Safe [] [] := (safe_iff _ _).2 ⟨0, _, .nil _, rfl, rfl, rfl, rfl⟩

theorem run_swap {n s t} (h : Run n s t) : Run n ⟨s.q, s.p, s.toQ, s.toP⟩ ⟨t.q, t.p, t.toQ, t.toP⟩ := by
  induction h with
  | nil => exact .nil _
  | cons w hs _ ih =>
    refine .cons (!w) ?_ ih
    cases w
    · obtain ⟨r, i, o, ha, rfl⟩ := step_false.1 hs
      exact step_true.2 ⟨r, i, o, ha, rfl⟩
    · obtain ⟨r, i, o, ha, rfl⟩ := step_true.1 hs
      exact step_false.2 ⟨r, i, o, ha, rfl⟩

theorem safe_swap {p q} (h : Safe p q) : Safe q p := by
  rw [safe_iff] at *
  obtain ⟨n, t, hr, hp, hq, h1, h2⟩ := h
  exact ⟨n, _, run_swap hr, hq, hp, h2, h1⟩

/-- The other side of a call. -/
def Act.flip : Act → Act
  | .send m => .recv m
  | .recv m => .send m

theorem safe_one (a : Act) : Safe [a] [a.flip] := by
  have h : ∀ m, Safe [.send m] [.recv m] := fun m => (safe_iff _ _).2
    ⟨2, ⟨[], [], [], []⟩, .cons true (t := ⟨[], [.recv m], [], [m]⟩) (by simp [step, act])
      (.cons false (by simp [step, act]) (.nil _)), rfl, rfl, rfl, rfl⟩
  cases a with
  | send m => exact h m
  | recv m => exact safe_swap (h m)

theorem safe_flip (l : List Act) : Safe l (l.map Act.flip) := by
  induction l with
  | nil => exact safe_nil
  | cons a l ih => exact safe_append (safe_one a) ih

theorem safe_of_flip {p q : List Act} (h : q = p.map Act.flip) : Safe p q := h ▸ safe_flip p

/-- Both send, then both receive. -/
theorem safe_exchange (a b : Msg) : Safe [.send a, .recv b] [.send b, .recv a] :=
  (safe_iff _ _).2 ⟨4, ⟨[], [], [], []⟩,
    .cons true (t := ⟨[.recv b], [.send b, .recv a], [], [a]⟩) (by simp [step, act])
      (.cons false (t := ⟨[.recv b], [.recv a], [b], [a]⟩) (by simp [step, act])
        (.cons true (t := ⟨[], [.recv a], [], [a]⟩) (by simp [step, act])
          (.cons false (by simp [step, act]) (.nil _)))), rfl, rfl, rfl, rfl⟩

/-! ### What safety says about the messages -/

def sends (l : List Act) : List Msg := l.filterMap fun | .send m => some m | .recv _ => none
def recvs (l : List Act) : List Msg := l.filterMap fun | .send _ => none | .recv m => some m

theorem completes_match {s} (h : Completes s) : s.toQ ++ sends s.p = recvs s.q ∧ s.toP ++ sends s.q = recvs s.p := by
  obtain ⟨n, t, hr, hd⟩ := h
  induction hr with
  | nil s => obtain ⟨h1, h2, h3, h4⟩ := hd; simp [h1, h2, h3, h4, sends, recvs]
  | @cons n s a u w hs _ ih =>
    have := ih hd
    cases w
    · obtain ⟨r, i, o, ha, rfl⟩ := step_false.1 hs
      rcases act_ok ha with ⟨m, h1, h2, h3⟩ | ⟨m, h1, h2, h3⟩ <;> simp_all [sends, recvs]
    · obtain ⟨r, i, o, ha, rfl⟩ := step_true.1 hs
      rcases act_ok ha with ⟨m, h1, h2, h3⟩ | ⟨m, h1, h2, h3⟩ <;> simp_all [sends, recvs]

/-- Safe parties read exactly what the other sends, in its order. -/
theorem C144_reads {p q} (h : Safe p q) : recvs q = sends p ∧ recvs p = sends q := by
  have := completes_match ((safe_iff p q).1 h)
  simpa [eq_comm] using this

/-! ### The protocols -/

theorem seed_flip : seedSend.map Act.flip = seedRecv := rfl
theorem seed_flip' : seedRecv.map Act.flip = seedSend := rfl

theorem base_flip (x n) : (baseSend x n).map Act.flip = baseRecv x n := rfl
theorem base_flip' (x n) : (baseRecv x n).map Act.flip = baseSend x n := rfl

theorem iknp_flip (n) : (iknpSend n).map Act.flip = iknpRecv n := by
  simp [iknpSend, iknpRecv, Act.flip, Function.comp_def]

theorem kos_flip (n) : (kosSend n).map Act.flip = kosRecv n := by
  simp [kosSend, kosRecv, Act.flip, Function.comp_def, seedSend, seedRecv]

theorem ss_flip (k st m n) : (ssSend k st m n).map Act.flip = ssRecv k st m n := by
  cases m <;> simp [ssSend, ssRecv, Act.flip, Function.comp_def, seedSend, seedRecv, Nat.mul_comm]

theorem ssSetup_flip (k m) : (ssSetupSend k m).map Act.flip = ssSetupRecv k m := rfl

theorem mpcot_flip (r s m) : (mpcotSend r s m).map Act.flip = mpcotRecv r s m := by
  cases m <;> simp only [mpcotSend, mpcotRecv, List.map_append, List.map_flatMap] <;> congr 1 <;> congr 1 <;> split <;> rfl

theorem ferret_loop (n t bs num m f i) : (ferretSendLoop n t bs num m f i).map Act.flip = ferretRecvLoop n t bs num m f i := by
  induction f generalizing i with
  | zero => rfl
  | succ f ih =>
    simp only [ferretSendLoop, ferretRecvLoop, List.map_append, mpcot_flip]
    congr 1
    split
    · exact ih _
    · rfl

theorem mpVole_flip (w no sz m f) : (mpVoleSend w no sz m f).map Act.flip = mpVoleRecv w no sz m f := by
  simp only [mpVoleSend, mpVoleRecv, List.map_append]
  congr 1
  · cases f
    · simp only [Bool.false_eq_true, if_false, mpfssSend, mpfssRecv, List.map_append, List.map_flatMap]
      rfl
    · simp only [if_true, mpfssFixedSend, mpfssFixedRecv, List.map_append]
      congr 1
      split <;> simp [Act.flip, Function.comp_def, Nat.mul_comm]
  · cases m <;> rfl

theorem kkrt_safe (p q : List Act) (h : q = p.map Act.flip) : Safe (prcInit 0 ++ p) (prcInit 1 ++ q) :=
  safe_append (safe_exchange _ _) (safe_of_flip h)

theorem call_safe (c : Call) : Safe c.sender c.receiver := by
  cases c with
  | baseOt x n => exact safe_of_flip rfl
  | iknp n => exact safe_of_flip (iknp_flip n).symm
  | kos n => exact safe_of_flip (kos_flip n).symm
  | kkrt n => exact kkrt_safe _ _ (by simp [Act.flip, Function.comp_def])
  | kkrtObj cs => exact kkrt_safe _ _ (by simp [Act.flip, Function.comp_def])
  | sgrr n m => exact safe_of_flip (by cases m <;> rfl)
  | sgrrFixed n m => exact safe_of_flip rfl
  | gywz n => exact safe_of_flip rfl
  | gywzFixed n => exact safe_of_flip rfl
  | ssInit x k m => exact safe_of_flip rfl
  | ss k st m n => exact safe_of_flip (ss_flip k st m n).symm
  | gilboa m b n => exact safe_of_flip (by simp only [Call.sender, Call.receiver, gilboaSend, gilboaRecv, List.map_append, ss_flip]; rfl)
  | mpcot r s m => exact safe_of_flip (mpcot_flip r s m).symm
  | ferret n k t num m =>
    exact safe_of_flip (by simp only [Call.sender, Call.receiver, ferretSend, ferretRecv, List.map_append, ferret_loop, seed_flip])
  | mpVole w no sz m f => exact safe_of_flip (mpVole_flip w no sz m f).symm
  | silent x i m tb w no g n =>
    refine safe_of_flip ?_
    simp only [Call.sender, Call.receiver, silentSend, silentRecv, List.map_append, ss_flip, mpVole_flip,
      Nat.add_comm (mpRequire _ _)]
    cases i <;> rfl
  | rot2ot n =>
    exact safe_of_flip (by simp [Call.sender, Call.receiver, rot2otSend, rot2otRecv, Act.flip, Function.comp_def, Nat.mul_comm, Nat.mul_left_comm])

/-! ### The property -/

/-- C144.  Any session of protocol calls, each with any parameters and any party as its sender, run by two parties that agree on
the calls: under every schedule nobody hangs, nobody reads a message meant for another place, nothing stays unread. -/
theorem C144_sessions (cs : List (Bool × Call)) : Safe (sessionP cs) (sessionQ cs) := by
  induction cs with
  | nil => exact safe_nil
  | cons c cs ih =>
    refine safe_append ?_ ih
    cases h : c.1
    · simpa [h] using safe_swap (call_safe c.2)
    · simpa [h] using call_safe c.2

example : Safe (sessionP [(true, .kkrt 300), (false, .ss 2 0 true 9000), (true, .ferret 1000 100 10 5000 true)])
    (sessionQ [(true, .kkrt 300), (false, .ss 2 0 true 9000), (true, .ferret 1000 100 10 5000 true)]) := C144_sessions _
example : (sessionP [(false, .ss 2 0 true 9000)]).length = 10 := by decide +kernel
example : (ssSend 2 0 true 9000).head? = some (.recv ⟨"SS-U", 0, 65536⟩) := by decide +kernel

/-- Not every pair of scripts is safe: two parties that both read first wait for each other for ever. -/
example (a b : Msg) : ¬ Safe [.recv b, .send a] [.recv a, .send b] := by
  intro h
  rcases (h 0 _ (.nil _)).2.1 with hd | ⟨who, t, ht⟩
  · simp [Done] at hd
  · cases who <;> simp [step, act] at ht

/-- The parties must agree: IKNP parties with different OT counts are safe exactly when the counts need as many batches. -/
theorem C144_iknp_agree (n m : ℕ) : Safe (iknpSend n) (iknpRecv m) ↔ divCeil n 128 = divCeil m 128 := by
  constructor
  · intro h
    have := (C144_reads h).2
    have hl := congrArg List.length this
    simpa [iknpSend, iknpRecv, recvs, sends, List.filterMap_map, Function.comp_def] using hl
  · intro h
    refine safe_of_flip ?_
    simp [iknpSend, iknpRecv, Act.flip, Function.comp_def, h]

example : ¬ Safe (iknpSend 128) (iknpRecv 129) := by rw [C144_iknp_agree]; decide
example : Safe (iknpSend 129) (iknpRecv 256) := by rw [C144_iknp_agree]; decide

/-- SoftSpoken parties that disagree on the consistency check are never safe. -/
theorem C144_mal_agree (k st n : ℕ) (m m' : Bool) : Safe (ssSend k st m n) (ssRecv k st m' n) ↔ m = m' := by
  constructor
  · intro h
    have := (C144_reads h).1
    have hl := congrArg List.length this
    cases m <;> cases m' <;>
      simp [ssSend, ssRecv, recvs, sends, seedSend, seedRecv, List.filterMap_map, Function.comp_def] at hl ⊢
  · rintro rfl
    exact call_safe (.ss k st m n)

/-! ### The malicious flag of the VOLE protocols -/

/-- The messages with which the OT extension proves its choices consistent. -/
def HasOtCheck (l : List Act) : Prop := ∃ a ∈ l, a = Act.recv ⟨"SS-CHECK", 0, 1032⟩

/-- The OT extension asks for its consistency check exactly when built in malicious mode. -/
theorem C144_ss_check_partial (k st n : ℕ) (m : Bool) : HasOtCheck (ssSend k st m n) ↔ m = true := by
  cases m <;> simp [HasOtCheck, ssSend, seedSend]

/-- Violation: a Gilboa VOLE called with `mal = true` never runs the consistency check; the flag only sets the step. -/
theorem C144_gilboa_violated (bits n : ℕ) : ¬ HasOtCheck (gilboaSend true bits n) := by
  simp [HasOtCheck, gilboaSend, ssSend, ssSetupSend]

/-- Violation: nor does a silent VOLE built with `mal = true`; only its multi-point VOLE is checked. -/
theorem C144_silent_violated (x i : Bool) (tb w noise gap n : ℕ) : ¬ HasOtCheck (silentSend x i true tb w noise gap n) := by
  have h : ∀ w no sz m f, ¬ HasOtCheck (mpVoleSend w no sz m f) := by
    intro w no sz m f
    simp only [HasOtCheck, mpVoleSend, mpfssFixedSend, mpfssSend, gywzSend, seedRecv]
    cases m <;> cases f <;> by_cases hw : w = 16 <;> simp [hw]
  have hm := h w noise (voleSize noise gap n) true true
  cases i <;> simp_all [HasOtCheck, silentSend, ssInitSend, ssSetupSend, baseRecv, ssSend]

/-! ### Only two parties -/

/-- `SyncSeed` and all the protocols above talk to the next rank only: that is the party that talks back exactly when there are two
parties (or one, talking to itself). -/
theorem C144_two_parties (W r : ℕ) (hr : r < W) (hW : W < 2 ^ 63) :
    Yacl.Link.nextRank W (Yacl.Link.nextRank W r 1) 1 = r ↔ W = 1 ∨ W = 2 := by
  have e2 : ∀ x, x < W → Yacl.Link.nextRank W x 1 = if x + 1 = W then 0 else x + 1 := by
    intro x hx
    unfold Yacl.Link.nextRank
    rw [Nat.mod_eq_of_lt (a := x + 1) (by omega)]
    split
    · next h => rw [h, Nat.mod_self]
    · exact Nat.mod_eq_of_lt (by omega)
  rw [e2 _ (by rw [e2 r hr]; split <;> omega), e2 r hr]
  split <;> split <;> omega

end Yacl.Scripts
