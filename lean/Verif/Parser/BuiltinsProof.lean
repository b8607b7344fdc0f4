/-
C66: references to objects are kept apart.
-/
import Verif.Parser.Builtins
namespace Grey.Parser
open List

/-! ### Proofs -/

/-- Different names have different numbers, all below the next one. -/
structure Refs.Ok (r : Refs) : Prop where
  below : ∀ n p, r.known.lookup n = some p → p < r.next
  inj : ∀ n m p, r.known.lookup n = some p → r.known.lookup m = some p → n = m

/-- The number for a name, once all instructions have been translated. -/
def finalNumber (keys : List (String × Nat)) (K : Refs) (n : String) : Nat :=
  match keys.lookup n with
  | some p => p
  | none => if dotOk n then 2 ^ 64 - 1 - (K.known.lookup n).getD 0 else 0

theorem lookup_snoc {d : List (String × Nat)} {k m : String} {v : Nat} :
    (d ++ [(k, v)]).lookup m = ((d.lookup m).or (if m = k then some v else none)) := by
  rw [List.lookup_append]
  congr 1
  by_cases h : m = k
  · subst h
    simp
  · rw [if_neg h, List.lookup, beq_eq_false_iff_ne.2 h]
    rfl

/-- One reference. -/
theorem refNumber_ok {keys : List (String × Nat)} {n : String} {r : Refs} (h : r.Ok) :
    (refNumber keys n r).2.Ok ∧ (∀ m p, r.known.lookup m = some p → (refNumber keys n r).2.known.lookup m = some p) ∧
    (refNumber keys n r).2.next ≤ r.next + 1 ∧
    ∀ K : Refs, (∀ m p, (refNumber keys n r).2.known.lookup m = some p → K.known.lookup m = some p) →
      (refNumber keys n r).1 = finalNumber keys K n ∧ (keys.lookup n = none → dotOk n = true → ∃ p, K.known.lookup n = some p) := by
  unfold refNumber finalNumber
  cases hk : keys.lookup n with
  | some p => exact ⟨h, fun _ _ h => h, Nat.le_succ _, fun K _ => ⟨rfl, by simp⟩⟩
  | none =>
    simp only []
    by_cases hd : dotOk n = true
    · rw [if_pos hd]
      cases hr : r.known.lookup n with
      | some p => exact ⟨h, fun _ _ h => h, Nat.le_succ _, fun K hK => ⟨by rw [if_pos hd, hK n p hr]; rfl, fun _ _ => ⟨p, hK n p hr⟩⟩⟩
      | none =>
        simp only []
        have look : ∀ m p, (r.known ++ [(n, r.next)]).lookup m = some p → r.known.lookup m = some p ∨ m = n ∧ p = r.next := by
          intro m p hm
          rw [lookup_snoc] at hm
          cases hm' : r.known.lookup m with
          | some q => rw [hm'] at hm; exact Or.inl hm
          | none =>
            rw [hm'] at hm
            by_cases e : m = n
            · rw [if_pos e] at hm
              cases hm
              exact Or.inr ⟨e, rfl⟩
            · rw [if_neg e] at hm
              cases hm
        refine ⟨⟨?_, ?_⟩, ?_, Nat.le_refl _, ?_⟩
        · intro m p hm
          rcases look m p hm with h1 | ⟨_, rfl⟩
          · exact Nat.lt_succ_of_lt (h.below m p h1)
          · exact Nat.lt_succ_self _
        · intro a b p ha hb
          rcases look a p ha with h1 | ⟨e1, e2⟩ <;> rcases look b p hb with h2 | ⟨e3, e4⟩
          · exact h.inj a b p h1 h2
          · exact absurd (h.below a p h1) (by omega)
          · exact absurd (h.below b p h2) (by omega)
          · rw [e1, e3]
        · intro m p hm
          rw [lookup_snoc, hm]
          rfl
        · intro K hK
          have : (r.known ++ [(n, r.next)]).lookup n = some r.next := by rw [lookup_snoc, hr, if_pos rfl]; rfl
          exact ⟨by rw [if_pos hd, hK n _ this]; rfl, fun _ _ => ⟨_, hK n _ this⟩⟩
    · rw [if_neg hd]
      exact ⟨h, fun _ _ h => h, Nat.le_succ _, fun K _ => ⟨by rw [if_neg hd], fun _ h => absurd h hd⟩⟩

/-- One instruction. -/
theorem translate_ok {keys : List (String × Nat)} {obj op : String} {lits : Option (List String)} {r r' : Refs} {o : LOp} (h : r.Ok)
    (ht : translate keys obj op lits r = some (o, r')) :
    r'.Ok ∧ (∀ m p, r.known.lookup m = some p → r'.known.lookup m = some p) ∧ r'.next ≤ r.next + 1 ∧
    (∀ n rest, lits = some (n :: rest) → op ∈ ["datasize", "dataoffset"] → ∀ K : Refs, (∀ m p, r'.known.lookup m = some p → K.known.lookup m = some p) →
      o.lits = [.num (finalNumber keys K n)] ∧ (keys.lookup n = none → dotOk n = true → ∃ p, K.known.lookup n = some p)) := by
  have same : r' = r → op ∉ ["datasize", "dataoffset"] → _ := fun e1 e2 =>
    (⟨e1 ▸ h, fun _ _ h => e1 ▸ h, e1 ▸ Nat.le_succ _, fun _ _ _ h' => absurd h' e2⟩ :
      r'.Ok ∧ (∀ m p, r.known.lookup m = some p → r'.known.lookup m = some p) ∧ r'.next ≤ r.next + 1 ∧
      (∀ n rest, lits = some (n :: rest) → op ∈ ["datasize", "dataoffset"] → ∀ K : Refs, (∀ m p, r'.known.lookup m = some p → K.known.lookup m = some p) →
      o.lits = [.num (finalNumber keys K n)] ∧ (keys.lookup n = none → dotOk n = true → ∃ p, K.known.lookup n = some p)))
  unfold translate at ht
  split at ht
  · rename_i e
    subst e
    obtain ⟨l, rfl, he⟩ := Option.map_eq_some_iff.1 ht
    cases he
    exact same rfl (by decide +kernel)
  split at ht
  · rename_i e
    subst e
    obtain ⟨l, rfl, he⟩ := Option.map_eq_some_iff.1 ht
    cases he
    exact same rfl (by decide +kernel)
  split at ht
  · rename_i e
    subst e
    obtain ⟨l, rfl, he⟩ := Option.bind_eq_some_iff.1 ht
    obtain ⟨n, hn, he⟩ := Option.map_eq_some_iff.1 he
    cases he
    obtain ⟨h1, h2, h3, h4⟩ := refNumber_ok (keys := keys) (n := n) h
    refine ⟨h1, h2, h3, ?_⟩
    intro n' rest e _ K hK
    cases e
    cases hn
    obtain ⟨h5, h6⟩ := h4 K hK
    exact ⟨by rw [← h5], h6⟩
  split at ht
  · rename_i e
    subst e
    obtain ⟨l, rfl, he⟩ := Option.bind_eq_some_iff.1 ht
    obtain ⟨n, hn, he⟩ := Option.map_eq_some_iff.1 he
    cases he
    obtain ⟨h1, h2, h3, h4⟩ := refNumber_ok (keys := keys) (n := n) h
    refine ⟨h1, h2, h3, ?_⟩
    intro n' rest e _ K hK
    cases e
    cases hn
    obtain ⟨h5, h6⟩ := h4 K hK
    exact ⟨by rw [← h5], h6⟩
  rename_i e1 e2
  have e3 : op ∉ ["datasize", "dataoffset"] := by simp [e1, e2]
  split at ht
  · cases ht; exact same rfl e3
  split at ht
  · cases ht; exact same rfl e3
  split at ht
  · cases ht; exact same rfl e3
  cases ht
  exact same rfl e3

theorem translateAll_ok {keys : List (String × Nat)} {obj : String} : ∀ {l : List (String × Option (List String))} {r : Refs} {out : List LOp}, r.Ok →
    translateAll keys obj l r = some out → out.length = l.length ∧ ∃ K : Refs, K.Ok ∧ (∀ m p, r.known.lookup m = some p → K.known.lookup m = some p) ∧
      K.next ≤ r.next + l.length ∧
      ∀ (i : Nat) (op n : String) (rest : List String), l[i]? = some (op, some (n :: rest)) → op ∈ ["datasize", "dataoffset"] →
        (∃ o, out[i]? = some (⟨o, [.num (finalNumber keys K n)]⟩ : LOp)) ∧ (keys.lookup n = none → dotOk n = true → ∃ p, K.known.lookup n = some p) := by
  intro l
  induction l with
  | nil =>
    intro r out hr h
    cases h
    exact ⟨rfl, r, hr, fun _ _ h => h, Nat.le_refl _, fun i op n rest h => by simp at h⟩
  | cons e l ih =>
    obtain ⟨op, lits⟩ := e
    intro r out hr h
    unfold translateAll at h
    obtain ⟨⟨o, r'⟩, h1, h⟩ := Option.bind_eq_some_iff.1 h
    obtain ⟨out', h2, rfl⟩ := Option.map_eq_some_iff.1 h
    obtain ⟨g1, g2, g3, g4⟩ := translate_ok hr h1
    obtain ⟨hl, K, k1, k2, k3, k4⟩ := ih g1 h2
    refine ⟨by simp [hl], K, k1, fun m p h => k2 m p (g2 m p h), by simp only [length_cons]; omega, ?_⟩
    intro i op' n rest hi hop
    cases i with
    | zero =>
      simp only [getElem?_cons_zero, Option.some.injEq, Prod.mk.injEq] at hi
      obtain ⟨rfl, rfl⟩ := hi
      obtain ⟨a1, a2⟩ := g4 n rest rfl hop K k2
      refine ⟨⟨o.op, ?_⟩, a2⟩
      rw [getElem?_cons_zero, ← a1]
    | succ i =>
      rw [getElem?_cons_succ] at hi ⊢
      exact k4 i op' n rest hi hop

/-! ### The property -/

/-- **C66.** In the code of an object or function, take two references (`datasize` or `dataoffset`) to the objects `n` and `m`. If the direct
subobjects have distinct numbers, there are fewer than 2⁶⁴ numbers in use, and names that are not those of direct subobjects do not have a dot as
their second character, the two references are translated to numbers which are the same exactly if the objects are; the reference to a direct
subobject is translated to its number. -/
theorem references_kept_apart {keys : List (String × Nat)} {obj : String} {l : List (String × Option (List String))} {out : List LOp}
    (h : translateList keys obj l = some out) (hk : ∀ n m p, keys.lookup n = some p → keys.lookup m = some p → n = m)
    (hs : ∀ n p, keys.lookup n = some p → p + l.length < 2 ^ 64) (hl : l.length < 2 ^ 64)
    {i j : Nat} {op op' n m : String} {rest rest' : List String} (hi : l[i]? = some (op, some (n :: rest)))
    (hj : l[j]? = some (op', some (m :: rest'))) (ho : op ∈ ["datasize", "dataoffset"]) (ho' : op' ∈ ["datasize", "dataoffset"])
    (hn : keys.lookup n = none → dotOk n = true) (hm : keys.lookup m = none → dotOk m = true) :
    ∃ o o' a b, out[i]? = some ⟨o, [.num a]⟩ ∧ out[j]? = some ⟨o', [.num b]⟩ ∧ (a = b ↔ n = m) ∧ ∀ p, keys.lookup n = some p → a = p := by
  obtain ⟨-, K, k1, -, k3, k4⟩ := translateAll_ok (⟨fun n p h => (by cases h), fun n m p h => (by cases h)⟩ : Refs.Ok ⟨0, []⟩) h
  obtain ⟨⟨o, h1⟩, h1'⟩ := k4 i op n rest hi ho
  obtain ⟨⟨o', h2⟩, h2'⟩ := k4 j op' m rest' hj ho'
  refine ⟨o, o', _, _, h1, h2, ⟨?_, fun e => by rw [e]⟩, fun p hp => by unfold finalNumber; rw [hp]⟩
  simp only [Nat.zero_add] at k3
  intro he
  unfold finalNumber at he
  cases hkn : keys.lookup n with
  | some p =>
    cases hkm : keys.lookup m with
    | some q =>
      rw [hkn, hkm] at he
      exact hk n m p hkn (by rw [hkm]; exact congrArg some he.symm)
    | none =>
      obtain ⟨q, hq⟩ := h2' hkm (hm hkm)
      rw [hkn, hkm] at he
      simp only [hm hkm, if_true, hq, Option.getD_some] at he
      have := k1.below m q hq
      have := hs n p hkn
      omega
  | none =>
    obtain ⟨p, hp⟩ := h1' hkn (hn hkn)
    have := k1.below n p hp
    cases hkm : keys.lookup m with
    | some q =>
      rw [hkn, hkm] at he
      simp only [hn hkn, if_true, hp, Option.getD_some] at he
      have := hs m q hkm
      omega
    | none =>
      obtain ⟨q, hq⟩ := h2' hkm (hm hkm)
      rw [hkn, hkm] at he
      simp only [hn hkn, hm hkm, if_true, hp, hq, Option.getD_some] at he
      have := k1.below m q hq
      have e : p = q := by omega
      subst e
      exact k1.inj n m p hp hq

/-- The translation changes neither the number of instructions nor the other operations. -/
theorem translation_local {keys : List (String × Nat)} {obj : String} {l : List (String × Option (List String))} {out : List LOp}
    (h : translateList keys obj l = some out) : out.length = l.length ∧ ∀ (i : Nat) (op : String) (lits : Option (List String)),
      l[i]? = some (op, lits) → op ∉ ["linkersymbol", "memoryguard", "datasize", "dataoffset", "datacopy", "setimmutable", "loadimmutable"] →
      out[i]? = some ⟨op, (lits.getD []).map .text⟩ := by
  refine ⟨(translateAll_ok (⟨fun n p h => (by cases h), fun n m p h => (by cases h)⟩ : Refs.Ok ⟨0, []⟩) h).1, ?_⟩
  unfold translateList at h
  revert h
  generalize (⟨0, []⟩ : Refs) = r
  induction l generalizing r out with
  | nil => intro h i op lits hi; simp at hi
  | cons e l ih =>
    obtain ⟨op0, lits0⟩ := e
    intro h i op lits hi hop
    unfold translateAll at h
    obtain ⟨⟨o, r'⟩, h1, h⟩ := Option.bind_eq_some_iff.1 h
    obtain ⟨out', h2, rfl⟩ := Option.map_eq_some_iff.1 h
    cases i with
    | zero =>
      simp only [getElem?_cons_zero, Option.some.injEq, Prod.mk.injEq] at hi
      obtain ⟨rfl, rfl⟩ := hi
      simp only [mem_cons, not_mem_nil, or_false, not_or] at hop
      unfold translate at h1
      simp only [hop, if_false, Option.some.injEq, Prod.mk.injEq] at h1
      rw [getElem?_cons_zero, ← h1.1]
    | succ i =>
      rw [getElem?_cons_succ] at hi ⊢
      exact ih r' h2 i op lits hi hop

/-! ### An example, and what goes wrong -/

/-- Two direct subobjects and two others. -/
example : translateList [("A_deployed", 0), ("lib", 1)] "A" [("dataoffset", some ["A_deployed"]), ("datasize", some ["lib"]), ("add", none),
    ("dataoffset", some ["lib.inner"]), ("datasize", some ["lib.inner"]), ("datasize", some ["lib.other"]), ("datasize", some ["A"])] =
    some [⟨"push [$]", [.num 0]⟩, ⟨"push #[$]", [.num 1]⟩, ⟨"add", []⟩, ⟨"push [$]", [.num (2 ^ 64 - 1)]⟩, ⟨"push #[$]", [.num (2 ^ 64 - 1)]⟩,
      ⟨"push #[$]", [.num (2 ^ 64 - 2)]⟩, ⟨"pushsize", [.num (2 ^ 64 - 3)]⟩] := by decide +kernel

/-- **Finding.** The numbering starts afresh in every function, so references to different objects in two functions of an object get the same number. -/
theorem numbers_collide : ∃ (keys : List (String × Nat)) (obj n m : String) (o o' : LOp), n ≠ m ∧ keys.lookup n = none ∧ keys.lookup m = none ∧
    translateList keys obj [("dataoffset", some [n])] = some [o] ∧ translateList keys obj [("dataoffset", some [m])] = some [o'] ∧ o = o' :=
  ⟨[("lib", 0)], "A", "lib.inner", "lib.other", _, _, by decide +kernel, by decide +kernel, by decide +kernel,
    (by decide +kernel : _ = some [⟨"push [$]", [.num (2 ^ 64 - 1)]⟩]), (by decide +kernel : _ = some [⟨"push [$]", [.num (2 ^ 64 - 1)]⟩]), rfl⟩

/-- **Finding.** A path whose first name has one character is taken for the first direct subobject. -/
theorem short_name_wrong : ∃ (keys : List (String × Nat)) (obj n m : String) (o o' : LOp), n ≠ m ∧
    translateList keys obj [("dataoffset", some [n]), ("dataoffset", some [m])] = some [o, o'] ∧ o = o' :=
  ⟨[("B", 0)], "A", "B", "B.inner", _, _, by decide +kernel,
    (by decide +kernel : _ = some [⟨"push [$]", [.num 0]⟩, ⟨"push [$]", [.num 0]⟩]), rfl⟩

end Grey.Parser
