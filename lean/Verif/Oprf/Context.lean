import Verif.Oprf.Props

/-! Context strings and key derivation (C95), and concrete runs of C93 and C94. -/
namespace Yacl.Oprf

variable {G : Type} [AddCommGroup G]

theorem strSplit_no_sep (sep : BitVec 8) (s : Bytes) : ∀ piece ∈ strSplit sep s, sep ∉ piece := by
  induction s with
  | nil => intro p hp; simp [strSplit] at hp; simp [hp]
  | cons c cs ih =>
    intro p hp
    unfold strSplit at hp
    split at hp
    · rcases List.mem_cons.1 hp with rfl | hp
      · simp
      · exact ih p hp
    · rename_i hc
      split at hp
      · simp only [List.mem_singleton] at hp
        subst hp
        simpa using fun h => hc h.symm
      · rename_i h t heq
        rw [heq] at ih
        rcases List.mem_cons.1 hp with rfl | hp
        · have := ih h List.mem_cons_self
          simp only [List.mem_cons, not_or]
          exact ⟨fun h => hc h.symm, this⟩
        · exact ih p (List.mem_cons_of_mem _ hp)

theorem fromStr_sep {s : Bytes} {x : Suite} (h : Suite.fromStr s = some x) : 0x2d#8 ∈ s := by
  unfold Suite.fromStr at h
  split at h
  · subst s; decide
  split at h
  · subst s; decide
  split at h
  · subst s; decide
  split at h
  · subst s; decide
  split at h
  · subst s; decide
  · cases h

/-- C95: the names of the cipher suites are read back. -/
theorem C95_suite (s : Suite) : Suite.fromStr s.toStr = some s := by cases s <;> decide

/-- C95: a name that is accepted is the name of the suite it gives. -/
theorem C95_suite_conv (b : Bytes) (s : Suite) (h : Suite.fromStr b = some s) : b = s.toStr := by
  unfold Suite.fromStr at h
  repeat' split at h
  all_goals first
    | (cases h; done)
    | (simp only [Option.some.injEq] at h; subst h; assumption)

/-- C95: different modes or cipher suites have different context strings, so that hashes of different protocols are
separated. -/
theorem C95_separation (m m' : BitVec 8) (s s' : Suite) (h : toContextString m s = toContextString m' s') :
    m = m' ∧ s = s' := by
  unfold toContextString at h
  simp only [List.append_assoc] at h
  have h1 := List.append_cancel_left h
  simp only [List.cons_append, List.nil_append, List.cons.injEq] at h1
  have h2 := List.append_cancel_left h1.2
  refine ⟨h1.1, ?_⟩
  have := congrArg Suite.fromStr h2
  rw [C95_suite, C95_suite] at this
  exact Option.some.inj this

/-- C95: reading a configuration back from its context string fails, for every mode and suite (and indeed no string at all
is accepted): the name of each suite contains the separator. -/
theorem C95_roundtrip_violated (str : Bytes) : fromContextString str = none := by
  unfold fromContextString
  split
  · rename_i a b c heq
    split
    · split
      · cases hs : Suite.fromStr c with
        | none => rfl
        | some x =>
          exfalso
          have h1 := fromStr_sep hs
          exact strSplit_no_sep 0x2d#8 str c (by rw [heq]; simp) h1
      · rfl
    · rfl
  · rfl

/-- C95: the derivation input, with its counter byte zero. -/
def deriveInput (seed info : Bytes) : Bytes := seed ++ be16 info.length ++ info ++ [0#8]

/-- C95: key derivation gives the scalar hash of the seed, the framed info and a zero counter when that is not zero, and
writes out of bounds when it is; the derived key does not depend on uninitialised memory.  Missing: the retry with the
next counter, which RFC 9497 asks for. -/
theorem C95_derive_partial (X : Ctx G) (seed info : Bytes) (hi : info.length < 65536) (junk : BitVec 8) :
    deriveKeyPair X seed info junk =
      if X.hashToScalarDerive (deriveInput seed info) = 0 then .ub
      else .ok (X.hashToScalarDerive (deriveInput seed info), X.hashToScalarDerive (deriveInput seed info) • X.gen) := by
  unfold deriveKeyPair
  rw [if_pos (by omega), i2osp_two, if_pos hi]
  have hset : (seed ++ be16 info.length ++ info ++ [junk]).set (seed.length + 2 + info.length) (BitVec.ofNat 8 (255 - 255)) =
      deriveInput seed info := by
    unfold deriveInput
    rw [List.set_append_right]
    · rw [show seed.length + 2 + info.length - (seed ++ be16 info.length ++ info).length = 0 by
        simp [be16]; omega]
      rfl
    · simp [be16]; omega
  simp only []
  rw [show (256 : Nat) = 255 + 1 from rfl, deriveLoop, if_pos (by simp [be16]; omega)]
  simp only []
  rw [hset]
  by_cases h0 : X.hashToScalarDerive (deriveInput seed info) = 0
  · rw [if_pos h0, if_pos h0, show (255 : Nat) = 254 + 1 from rfl, deriveLoop, if_neg]
    simp [deriveInput, be16]
    omega
  · rw [if_neg h0, if_neg h0]

/-- C95: an info string whose length does not fit in 16 bits is refused. -/
theorem C95_derive_long (X : Ctx G) (seed info : Bytes) (hi : 65536 ≤ info.length) (junk : BitVec 8) :
    deriveKeyPair X seed info junk = .throw := by
  unfold deriveKeyPair
  rw [if_neg (by omega)]

/-- C95: the derivation input determines the seed (of fixed length) and the info string. -/
theorem C95_derive_inj {s s' i i' : Bytes} (hs : s.length = s'.length) (hi : i.length < 65536) (hi' : i'.length < 65536)
    (h : deriveInput s i = deriveInput s' i') : s = s' ∧ i = i' := by
  unfold deriveInput at h
  simp only [List.append_assoc] at h
  have h1 := List.append_inj h hs
  have h2 := frame_append_inj hi hi' (by simpa only [List.append_assoc] using h1.2)
  exact ⟨h1.1, h2.1⟩

end Yacl.Oprf
