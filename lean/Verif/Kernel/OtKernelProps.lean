import Verif.Kernel.OtKernel

namespace Yacl.OtKernel

open Yacl.Ggm (B Base)
open Yacl.Softspoken (Fns TreeMsg setupRecv setupSend deltaOf recv send)
open Yacl.Ferret (Cot Env dflt mpNum parity noise)
open Yacl.OtExt (OtCorrect)

/-- States reached after `init`: the SoftSpoken cores of one setup with equal counters, or enough base COTs with an odd correlation. -/
def Inv (f : Fns) (ferret : Bool) (delta : B) (k : K) : Prop :=
  delta.getLsbD 0 = true ∧ k.delta = delta ∧
  match k with
  | .ss leaves st d c c' => ferret = false ∧ c' = c ∧ ∃ base seeds msgs, d = deltaOf base true ∧ setupRecv f base seeds 2 false true = some (msgs, leaves) ∧
      setupSend f base 2 false true msgs = some st
  | .ferret d bs br => ferret = true ∧ Cot d bs br ∧ dflt.k + mpNum dflt.t dflt.n false ≤ bs.length

theorem ss_ok (f : Fns) (base : Base) (seeds : Nat → B) (msgs : List TreeMsg) (leaves : List (List B)) (st : List (Nat × List B))
    (e1 : setupRecv f base seeds 2 false true = some (msgs, leaves)) (e2 : setupSend f base 2 false true msgs = some st) (ctr : B) (n : Nat) (r : Rnd)
    (hn : r.choices.length = n) (hchi : r.chi.length = 2 * ((n + 64 + 127) / 128)) :
    ∃ us s o ctr', ssCot f leaves st (deltaOf base true) ctr ctr n r = some (us, s, o, ctr', ctr') ∧ s.length = n ∧ Cot (deltaOf base true) s o ∧
      (∀ j < n, (o.getD j 0).getLsbD 0 = r.choices.getD j false) ∧
      ∃ ans, recv f.crh 2 0 true true r.s2 r.j2 leaves ctr r.choices r.bits = some (us, ans, o, ctr') := by
  obtain ⟨msgs', leaves', st', e1', e2', -, H⟩ := Softspoken.C98_softspoken f base seeds 2 (by omega) (by omega) false true
  rw [e1] at e1'
  obtain ⟨rfl, rfl⟩ := Prod.mk.inj (Option.some.inj e1')
  rw [e2] at e2'
  obtain rfl := Option.some.inj e2'
  obtain ⟨us, ans, out, ctr', pairs, h1, h2, ⟨l1, l2, h3⟩, h4, h5⟩ := H 0 true r.s1 r.s2 r.j1 r.j2 ctr r.choices r.bits r.chi (by rw [hn]; exact hchi)
  have h4 := h4 rfl
  have h5 := h5 rfl rfl
  rw [hn] at h2 l1 l2
  refine ⟨us, pairs.map (·.1), out, ctr', ?_, by rw [List.length_map, l1], ⟨by rw [List.length_map, l1, l2], ?_⟩, ?_, ans, h1⟩
  · unfold ssCot
    rw [if_pos hn, h1, Option.bind_some, h2, Option.map_some]
  · intro i hi
    rw [List.length_map, l1] at hi
    have a1 : r.choices[i]? = some (r.choices[i]'(by omega)) := List.getElem?_eq_getElem _
    have a2 : pairs[i]? = some (pairs[i]'(by omega)) := List.getElem?_eq_getElem _
    have a3 : out[i]? = some (out[i]'(by omega)) := List.getElem?_eq_getElem _
    have b1 := h3 i _ _ _ a1 a2 a3
    have b2 := h5 i _ _ a1 a3
    have b3 := h4 _ (List.getElem_mem (by omega : i < pairs.length))
    rw [List.getD_eq_getElem?_getD, a3, List.getD_eq_getElem?_getD, List.getElem?_map, a2]
    simp only [Option.getD_some, Option.map_some]
    simp only [b2]
    refine b1.trans ?_
    cases r.choices[i]'(by omega)
    · exact BitVec.xor_zero.symm
    · exact b3
  · intro i hi
    have a1 : r.choices[i]? = some (r.choices[i]'(by omega)) := List.getElem?_eq_getElem _
    have a3 : out[i]? = some (out[i]'(by omega)) := List.getElem?_eq_getElem _
    rw [List.getD_eq_getElem?_getD, a3, List.getD_eq_getElem?_getD, a1]
    exact h5 i _ _ a1 a3

theorem init_inv (ferret : Bool) (f : Fns) (base : Base) (seeds : Nat → B) (r : Rnd)
    (h1 : r.choices.length = dflt.k + mpNum dflt.t dflt.n false) (h2 : r.chi.length = 2 * ((r.choices.length + 64 + 127) / 128)) :
    ∃ msgs us k, init ferret f base seeds r = some (msgs, us, k) ∧ Inv f ferret (deltaOf base true) k := by
  obtain ⟨msgs, leaves, st, e1, e2, hd, -⟩ := Softspoken.C98_softspoken f base seeds 2 (by omega) (by omega) false true
  have hodd : (deltaOf base true).getLsbD 0 = true := by rw [hd 0 (by omega)]; simp
  have hs : ssInit f base seeds = some (msgs, leaves, st) := by
    unfold ssInit
    rw [e1, Option.bind_some, e2, Option.map_some]
  unfold init
  rw [hs, Option.bind_some]
  cases ferret with
  | false => exact ⟨_, _, _, rfl, hodd, rfl, rfl, rfl, base, seeds, msgs, rfl, e1, e2⟩
  | true =>
    rw [h1] at h2
    obtain ⟨us, s, o, ctr', g1, g2, g3, -⟩ := ss_ok f base seeds msgs leaves st e1 e2 0 _ r h1 h2
    simp only [if_true]
    rw [g1, Option.map_some]
    exact ⟨_, _, _, rfl, hodd, rfl, rfl, g3, by rw [g2]⟩

theorem cot_ok (f : Fns) (ferret : Bool) (delta : B) (k : K) (hk : Inv f ferret delta k) (n : Nat) (r : Rnd)
    (hv : if ferret then 2 * dflt.t ≤ n ∧ r.js.length = n ∧ r.jr.length = n else r.choices.length = n ∧ r.chi.length = 2 * ((n + 64 + 127) / 128)) :
    ∃ s o k', evalCot f k n r = some ((s, o), k') ∧ Inv f ferret delta k' ∧ s.length = n ∧ Cot delta s o := by
  obtain ⟨hodd, rfl, hk⟩ := hk
  cases k with
  | ss leaves st d c c' =>
    obtain ⟨rfl, rfl, base, seeds, msgs, rfl, e1, e2⟩ := hk
    simp only [Bool.false_eq_true, if_false] at hv
    obtain ⟨us, s, o, ctr', g1, g2, g3, -⟩ := ss_ok f base seeds msgs leaves st e1 e2 c' n r hv.1 hv.2
    refine ⟨s, o, .ss leaves st (deltaOf base true) ctr' ctr', ?_, ⟨hodd, rfl, rfl, rfl, base, seeds, msgs, rfl, e1, e2⟩, g2, g3⟩
    unfold evalCot
    simp only
    rw [g1, Option.map_some]
  | ferret d bs br =>
    obtain ⟨rfl, h1, h2⟩ := hk
    simp only [if_true] at hv
    have ht : 1 ≤ dflt.t := by decide
    obtain ⟨oS, oR, g1, g2, g3⟩ := Ferret.C99_ferret r.env dflt false false (Ferret.dflt_ok false) d hodd bs br h1 h2 n (by omega) (Or.inr hv.1)
      (fun h => by cases h) r.js r.jr hv.2.1 hv.2.2
    refine ⟨oS, oR, .ferret d bs br, ?_, ⟨hodd, rfl, rfl, h1, h2⟩, g2, g3⟩
    unfold evalCot
    simp only
    rw [g1, Option.map_some]

theorem rot_ok (h : B → B) (delta : B) (s o : List B) (hc : Cot delta s o) (hn : s.length < 2 ^ 32) (oldS : List (B × B)) (oldR : List B)
    (h1 : oldS.length = s.length) (h2 : oldR.length = s.length) :
    (rotRecv h o oldR).1.length = s.length ∧ OtCorrect (rotRecv h o oldR).1 (rotSend h delta s oldS) (rotRecv h o oldR).2 := by
  have hl := hc.1
  have m1 : s.length % 2 ^ 32 = s.length := Nat.mod_eq_of_lt hn
  have m2 : o.length % 2 ^ 32 = o.length := by rw [← hl]; exact m1
  unfold rotRecv rotSend
  simp only
  rw [m1, m2, List.take_length, List.take_length, List.drop_eq_nil_of_le (by omega), List.drop_eq_nil_of_le (by omega), List.append_nil, List.append_nil]
  refine ⟨by rw [List.length_map, hl], by rw [List.length_map, List.length_map, hl], by rw [List.length_map, List.length_map], ?_⟩
  intro q c m r g1 g2 g3
  rw [List.getElem?_map] at g1 g2 g3
  obtain ⟨x, x1, rfl⟩ := Option.map_eq_some_iff.mp g1
  obtain ⟨y, y1, rfl⟩ := Option.map_eq_some_iff.mp g2
  rw [x1, Option.map_some] at g3
  obtain rfl := Option.some.inj g3
  have hq : q < s.length := (List.getElem?_eq_some_iff.mp y1).1
  have := hc.2 q hq
  rw [List.getD_eq_getElem?_getD, List.getD_eq_getElem?_getD, x1, y1] at this
  simp only [Option.getD_some] at this
  cases hx : x.getLsbD 0
  · simp only [hx, Bool.false_eq_true, if_false] at this ⊢
    exact congrArg h (this.trans BitVec.xor_zero)
  · simp only [hx, if_true] at this ⊢
    rw [← this]

/-- C100. Both extension algorithms, any base OTs, seeds and hash functions: `init` succeeds, and then any sequence of correlated and random OT calls of any
sizes the API accepts succeeds. Each call makes as many OTs as asked for; the correlated ones all have one odd correlation, fixed by `init`, and the choice is the
lowest bit of the received block; in the random ones the receiver holds exactly the message its choice selects. -/
theorem C100_kernel (ferret : Bool) (f : Fns) (base : Base) (seeds : Nat → B) (r : Rnd)
    (h1 : r.choices.length = dflt.k + mpNum dflt.t dflt.n false) (h2 : r.chi.length = 2 * ((r.choices.length + 64 + 127) / 128)) :
    ∃ msgs us k delta, init ferret f base seeds r = some (msgs, us, k) ∧ delta.getLsbD 0 = true ∧
      ∀ calls : List Call, (∀ c ∈ calls, c.Valid ferret) → ∃ outs, steps f k calls = some outs ∧ List.Forall₂ (fun c o => Out.Good delta c.n o) calls outs := by
  obtain ⟨msgs, us, k, e, hk⟩ := init_inv ferret f base seeds r h1 h2
  refine ⟨msgs, us, k, deltaOf base true, e, hk.1, ?_⟩
  intro calls
  clear e
  induction calls generalizing k with
  | nil => exact fun _ => ⟨[], rfl, .nil⟩
  | cons c cs ih =>
    intro hv
    obtain ⟨hv1, hv2⟩ := hv c (by simp)
    obtain ⟨s, o, k', g1, g2, g3, g4⟩ := cot_ok f ferret (deltaOf base true) k hk c.n c.rnd hv1
    obtain ⟨outs, g5, g6⟩ := ih k' g2 (fun c' hc' => hv c' (by simp [hc']))
    have hd := hk.2.1
    cases c with
    | cot n r =>
      simp only [Call.n, Call.rnd] at g1 g3
      refine ⟨.cot (deltaOf base true) s o :: outs, ?_, .cons ⟨rfl, g3, g4⟩ g6⟩
      simp only [steps, step]
      rw [g1, Option.map_some, Option.bind_some, g5, Option.map_some, hd]
    | rot n r oldS oldR =>
      simp only [Call.n, Call.rnd] at g1 g3
      simp only at hv2
      obtain ⟨w1, w2⟩ := rot_ok f.crh (deltaOf base true) s o g4 (by omega) oldS oldR (by omega) (by omega)
      refine ⟨.rot (rotSend f.crh (deltaOf base true) s oldS) (rotRecv f.crh o oldR).1 (rotRecv f.crh o oldR).2 :: outs, ?_, .cons ⟨by rw [w1, g3]; rfl, w2⟩ g6⟩
      simp only [steps, step, evalRot]
      rw [if_pos ⟨hv2.1, hv2.2.1⟩, g1]
      simp only [Option.map_some, Option.bind_some]
      rw [g5, Option.map_some, hd]

/-- The Ferret kernel uses the same base COTs in every call. So two calls of one kernel share the secret of the code and the noise, and the noise cancels: the
sum of the receiver's choices in the two calls is, at every position, a known sum (ten positions of each public matrix) of the same `k` secret bits. -/
theorem C100_reuse_violated (rp rp' : B → B) :
    ∃ J J' : Nat → List Nat, (∀ j, (J j).length = 10 ∧ (J' j).length = 10) ∧
      ∀ (f : Fns) (delta : B) (bs br : List B), Inv f true delta (.ferret delta bs br) → ∃ secret : Nat → Bool,
        ∀ (n : Nat) (r r' : Rnd), r.env.rp = rp → r'.env.rp = rp' → 2 * dflt.t ≤ n → n ≤ dflt.n → r.js.length = n → r.jr.length = n →
        r'.js.length = n → r'.jr.length = n →
        ∃ s o s' o' k', evalCot f (.ferret delta bs br) n r = some ((s, o), k') ∧ evalCot f k' n r' = some ((s', o'), k') ∧
          ∀ j < n, ((o.getD j 0).getLsbD 0 ^^ (o'.getD j 0).getLsbD 0) =
            (((J j).filter secret).length.bodd ^^ ((J' j).filter secret).length.bodd) := by
  obtain ⟨J, hJ, H⟩ := Ferret.C99_choices rp dflt false (Ferret.dflt_ok false)
  obtain ⟨J', hJ', H'⟩ := Ferret.C99_choices rp' dflt false (Ferret.dflt_ok false)
  refine ⟨J, J', fun j => ⟨(hJ j).1, (hJ' j).1⟩, ?_⟩
  rintro f delta bs br ⟨hodd, -, -, hc, hlen⟩
  refine ⟨fun i => (br.getD (mpNum dflt.t dflt.n false + i) 0).getLsbD 0, ?_⟩
  intro n r r' hr hr' h1 h2 l1 l2 l3 l4
  obtain ⟨s, o, e1, g1⟩ := H r.env hr delta hodd bs br hc hlen n h1 h2 (fun h => by cases h) r.js r.jr l1 l2
  obtain ⟨s', o', e2, g2⟩ := H' r'.env hr' delta hodd bs br hc hlen n h1 h2 (fun h => by cases h) r'.js r'.jr l3 l4
  refine ⟨s, o, s', o', .ferret delta bs br, ?_, ?_, ?_⟩
  · simp only [evalCot]; rw [e1, Option.map_some]
  · simp only [evalCot]; rw [e2, Option.map_some]
  · intro j hj
    rw [g1 j hj, g2 j hj]
    unfold parity
    cases noise _ _ _ j <;> simp

theorem noise_congr (b b' : List B) (h : ∀ i, (b.getD i 0).getLsbD 0 = (b'.getD i 0).getLsbD 0) (o l range s j : Nat) :
    noise ⟨b, o, l⟩ range s j = noise ⟨b', o, l⟩ range s j := by
  unfold noise
  simp only [h]

theorem parity_congr (b b' : List B) (h : ∀ i, (b.getD i 0).getLsbD 0 = (b'.getD i 0).getLsbD 0) (o : Nat) (l : List Nat) :
    parity b o l = parity b' o l := by
  unfold parity
  simp only [h]

/-- The choices of the default kernel are not hidden: what the receiver sends during `init` (and public functions) determines its choices in every later call. One
attack works for every base OT, seed, choice and call of up to `n` OTs. It composes the leak of compact SoftSpoken with the structure of Ferret. -/
theorem C100_leak_violated (f : Fns) (rp : B → B) :
    ∃ attack : List TreeMsg → Wire → Nat → Nat → Bool, ∀ (base : Base) (seeds : Nat → B) (r : Rnd) (msgs : List TreeMsg) (us : Wire) (k : K),
      r.choices.length = dflt.k + mpNum dflt.t dflt.n false → r.chi.length = 2 * ((r.choices.length + 64 + 127) / 128) →
      init true f base seeds r = some (msgs, us, k) →
      ∀ (n : Nat) (r' : Rnd), r'.env.rp = rp → 2 * dflt.t ≤ n → n ≤ dflt.n → r'.js.length = n → r'.jr.length = n →
        ∃ s o, evalCot f k n r' = some ((s, o), k) ∧ ∀ j < n, attack msgs us n j = (o.getD j 0).getLsbD 0 := by
  obtain ⟨J, hJ, H⟩ := Ferret.C99_choices rp dflt false (Ferret.dflt_ok false)
  obtain ⟨att, hatt⟩ := Softspoken.C98_compact_violated f 2 0 (by omega) (by omega) false
  let N := dflt.k + mpNum dflt.t dflt.n false
  let bits : List TreeMsg → Wire → List B := fun m u => (att m 0 N u).map fun c => if c then 1#128 else 0#128
  refine ⟨fun m u n j => noise ⟨bits m u, 0, mpNum dflt.t dflt.n false⟩ n (dflt.n / dflt.t) j ^^ parity (bits m u) (mpNum dflt.t dflt.n false) (J j), ?_⟩
  intro base seeds r msgs us k h1 h2 hinit n r' hr' l1 l2 l3 l4
  obtain ⟨msgs', leaves, st, e1, e2, hd, -⟩ := Softspoken.C98_softspoken f base seeds 2 (by omega) (by omega) false true
  have hodd : (deltaOf base true).getLsbD 0 = true := by rw [hd 0 (by omega)]; simp
  have hs : ssInit f base seeds = some (msgs', leaves, st) := by
    unfold ssInit
    rw [e1, Option.bind_some, e2, Option.map_some]
  rw [h1] at h2
  obtain ⟨us', s, o, ctr', g1, g2, g3, g4, ans, g5⟩ := ss_ok f base seeds msgs' leaves st e1 e2 0 _ r h1 h2
  unfold init at hinit
  rw [hs, Option.bind_some, if_pos rfl, g1, Option.map_some] at hinit
  simp only [Option.some.injEq, Prod.mk.injEq] at hinit
  obtain ⟨rfl, rfl, rfl⟩ := hinit
  have ha := hatt base seeds true r.s2 r.j2 0 r.choices r.bits msgs' leaves us' ans o ctr' e1 g5
  rw [h1] at ha
  have hb : ∀ i, ((bits msgs' us').getD i 0).getLsbD 0 = (o.getD i 0).getLsbD 0 := by
    intro i
    have : bits msgs' us' = r.choices.map fun c => if c then 1#128 else 0#128 := by
      show (att msgs' 0 N us').map _ = _
      rw [ha]
    rw [this]
    by_cases hi : i < dflt.k + mpNum dflt.t dflt.n false
    · rw [g4 i hi, List.getD_eq_getElem?_getD, List.getD_eq_getElem?_getD, List.getElem?_map]
      cases r.choices[i]? with
      | none => rfl
      | some c => cases c <;> rfl
    · have hlo : o.length = dflt.k + mpNum dflt.t dflt.n false := by rw [← g3.1, g2]
      rw [List.getD_eq_getElem?_getD, List.getD_eq_getElem?_getD, List.getElem?_eq_none (by rw [List.length_map]; omega), List.getElem?_eq_none (by omega)]
  obtain ⟨s2, o2, q1, q2⟩ := H r'.env hr' (deltaOf base true) hodd s o g3 (by rw [g2]) n l1 l2 (fun h => by cases h) r'.js r'.jr l3 l4
  refine ⟨s2, o2, ?_, ?_⟩
  · simp only [evalCot]; rw [q1, Option.map_some]
  · intro j hj
    rw [q2 j hj, ← noise_congr _ _ hb, ← parity_congr _ _ hb]

/-- The hypotheses of the theorems above hold of a run: randomness of the required sizes, a correlated call of 3000 OTs followed by a random one of 2560. -/
example (f : Fns) (env : Env) : ∃ (r : Rnd) (c c' : Call), r.env = env ∧ r.choices.length = dflt.k + mpNum dflt.t dflt.n false ∧
    r.chi.length = 2 * ((r.choices.length + 64 + 127) / 128) ∧ c.Valid true ∧ c.n = 3000 ∧ c'.Valid true ∧ c'.n = 2560 := by
  let mk : Nat → Rnd := fun n => ⟨env, List.replicate n true, [], List.replicate (2 * ((n + 64 + 127) / 128)) 0, true, false, default, default,
    List.replicate n 0, List.replicate n 0⟩
  refine ⟨mk (dflt.k + mpNum dflt.t dflt.n false), .cot 3000 (mk 3000), .rot 2560 (mk 2560) (List.replicate 2560 (0, 0)) (List.replicate 2560 0), rfl, ?_, ?_, ?_,
    rfl, ?_, rfl⟩
  · exact List.length_replicate
  · show (List.replicate _ _).length = 2 * (((List.replicate _ _).length + 64 + 127) / 128)
    rw [List.length_replicate, List.length_replicate]
  · exact ⟨⟨by simp only [Call.n]; decide, List.length_replicate, List.length_replicate⟩, trivial⟩
  · exact ⟨⟨by simp only [Call.n]; decide, List.length_replicate, List.length_replicate⟩, List.length_replicate, List.length_replicate, by omega⟩

end Yacl.OtKernel
