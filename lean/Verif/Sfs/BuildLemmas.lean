/-
Lemmas for C49.
-/
import Verif.Sfs.BuildSpec
import Verif.Sfs.Theorems
import Verif.SymExec.Refine
import Verif.Common.Names
import Mathlib.Tactic.IntervalCases
open List
namespace Grey.Sfs
open Grey.SymExec

/-! ### Texts -/

theorem isConst_iff (x : String) : isConst x = true ↔ IsLiteral x := by
  unfold isConst IsLiteral
  rw [List.isPrefixOf_iff_prefix]
  show ['0', 'x'] <+: x.toList ↔ _
  constructor
  · rintro ⟨t, ht⟩; exact ⟨t, by simpa using ht.symm⟩
  · rintro ⟨t, ht⟩; exact ⟨t, by simp [ht]⟩

theorem char_eq_of_toNat {c : Char} {n : Nat} (h : c.toNat = n) : c = Char.ofNat n := by
  rw [← h, Char.ofNat_toNat]

theorem hexDigit_spec {c : Char} {d : Nat} (h : hexDigit? c = some d) :
    d = "0123456789abcdef".toList.idxOf c.toLower := by
  unfold hexDigit? at h
  have le : ∀ a b : Char, a ≤ b ↔ a.toNat ≤ b.toNat := fun a b => Iff.rfl
  split at h
  · rename_i hc
    simp only [le] at hc
    obtain ⟨h1, h2⟩ := hc
    have h1' : 48 ≤ c.toNat := h1
    have h2' : c.toNat ≤ 57 := h2
    generalize hk : c.toNat = k at *
    rw [char_eq_of_toNat hk]
    interval_cases k <;> · simp only [Option.some.injEq] at h; subst h; decide
  · split at h
    · rename_i hc
      simp only [le] at hc
      obtain ⟨h1, h2⟩ := hc
      have h1' : 97 ≤ c.toNat := h1
      have h2' : c.toNat ≤ 102 := h2
      generalize hk : c.toNat = k at *
      rw [char_eq_of_toNat hk]
      interval_cases k <;> · simp only [Option.some.injEq] at h; subst h; decide
    · split at h
      · rename_i hc
        simp only [le] at hc
        obtain ⟨h1, h2⟩ := hc
        have h1' : 65 ≤ c.toNat := h1
        have h2' : c.toNat ≤ 70 := h2
        generalize hk : c.toNat = k at *
        rw [char_eq_of_toNat hk]
        interval_cases k <;> · simp only [Option.some.injEq] at h; subst h; decide
      · simp at h

theorem hexFold_spec {l : List Char} {n m : Nat} (h : hexFold l n = some m) :
    m = l.foldl (fun n c => 16 * n + "0123456789abcdef".toList.idxOf c.toLower) n := by
  induction l generalizing n with
  | nil => simpa [hexFold] using h.symm
  | cons c l ih =>
    rw [hexFold] at h
    obtain ⟨d, hd, h⟩ := Option.bind_eq_some_iff.1 h
    rw [List.foldl_cons, ← hexDigit_spec hd]
    exact ih h

theorem intHex_spec {x : String} {n : Nat} (h : intHex x = some n) : n = constNumber x := by
  unfold intHex at h
  simp only at h
  by_cases hc : isConst x = true
  · rw [if_pos hc] at h
    split at h
    · simp at h
    have hf := hexFold_spec h
    obtain ⟨t, ht⟩ := (isConst_iff x).1 hc
    rw [ht] at hf
    unfold constNumber
    rw [ht]
    exact hf
  · rw [if_neg hc] at h
    split at h
    · simp at h
    have hf := hexFold_spec h
    rw [isConst_iff] at hc
    unfold constNumber
    split
    · rename_i l hl; exact absurd ⟨l, hl⟩ hc
    · exact hf

theorem toString_no_underscore (n : Nat) : '_' ∉ (toString n).toList := by
  intro h
  have h' : '_' ∈ Nat.toDigits 10 n := by simpa using h
  have := Nat.isDigit_of_mem_toDigits (by omega) (by omega) h'
  simp [Char.isDigit] at this

theorem last_sep {a b c d : List Char} {s : Char} (hb : s ∉ b) (hd : s ∉ d) (h : a ++ s :: b = c ++ s :: d) :
    a = c ∧ b = d := by
  rcases List.append_eq_append_iff.1 h with ⟨x, h1, h2⟩ | ⟨x, h1, h2⟩
  · cases x with
    | nil => simp at h1 h2; exact ⟨h1.symm, h2⟩
    | cons y x =>
      simp only [List.cons_append, List.cons.injEq] at h2
      exact absurd (by rw [h2.2]; simp) hb
  · cases x with
    | nil => simp at h1 h2; exact ⟨h1, h2.symm⟩
    | cons y x =>
      simp only [List.cons_append, List.cons.injEq] at h2
      exact absurd (by rw [h2.2]; simp) hd

theorem id_inj {a b : String} {m n : Nat} (h : a ++ "_" ++ toString m = b ++ "_" ++ toString n) : a = b ∧ m = n := by
  have h' := congrArg String.toList h
  rw [String.toList_append, String.toList_append, String.toList_append, String.toList_append] at h'
  have h'' : a.toList ++ '_' :: (toString m).toList = b.toList ++ '_' :: (toString n).toList := by
    simpa [List.append_assoc] using h'
  obtain ⟨h1, h2⟩ := last_sep (toString_no_underscore m) (toString_no_underscore n) h''
  exact ⟨String.toList_inj.1 h1, Names.toString_inj (String.toList_inj.1 h2)⟩

/-- A pattern without any character of `b` that occurs in `a ++ b` occurs in `a`. -/
theorem infix_left {p a b : List Char} (hp : p ≠ []) (hb : ∀ c ∈ b, c ∉ p) (h : p <:+: a ++ b) : p <:+: a := by
  obtain ⟨s, t, h⟩ := h
  rw [List.append_assoc] at h
  rcases List.append_eq_append_iff.1 h with ⟨x, h1, h2⟩ | ⟨x, h1, h2⟩
  · rcases List.append_eq_append_iff.1 h2 with ⟨y, h3, h4⟩ | ⟨y, h3, h4⟩
    · exact ⟨s, y, by rw [h1, h3]; simp⟩
    · cases y with
      | nil => exact ⟨s, [], by rw [h1, h3]; simp⟩
      | cons c y => exact absurd (by rw [h3]; simp) (hb c (by rw [h4]; simp))
  · obtain ⟨c, p', rfl⟩ := List.exists_cons_of_ne_nil hp
    exact absurd (by simp) (hb c (by rw [h2]; simp))

/-- The names that cannot be confused with the stack operations of the scheduler. -/
def PlainName (name : String) : Prop :=
  ∀ p ∈ ["SWAP", "DUP", "VGET(", "VSET("], ¬ p.toList <:+: name.toList

theorem matchCall_some_prefix {n s r : List Char} (h : matchCall n s = some r) : n ++ ['('] <+: s := by
  unfold matchCall at h
  split at h
  · rename_i hp; exact List.isPrefixOf_iff_prefix.1 hp
  · simp at h

theorem classify_plain {name : String} (h : PlainName name) (k : Nat) :
    classify (name ++ "_" ++ toString k) = some (.instr (name ++ "_" ++ toString k)) := by
  have hl : (name ++ "_" ++ toString k).toList = name.toList ++ '_' :: (toString k).toList := by
    rw [String.toList_append, String.toList_append]; simp [List.append_assoc]
  have hno : ∀ p ∈ ["SWAP", "DUP", "VGET(", "VSET("], ¬ p.toList <:+: (name ++ "_" ++ toString k).toList := by
    intro p hp hin
    rw [hl] at hin
    refine h p hp (infix_left ?_ ?_ hin)
    · rintro e
      simp only [List.mem_cons, List.not_mem_nil, or_false] at hp
      rcases hp with rfl | rfl | rfl | rfl <;> simp at e
    · intro c hc hcp
      rcases List.mem_cons.1 hc with rfl | hc
      · simp only [List.mem_cons, List.not_mem_nil, or_false] at hp
        rcases hp with rfl | rfl | rfl | rfl <;> simp at hcp
      · have h' : c ∈ Nat.toDigits 10 k := by simpa using hc
        have := Nat.isDigit_of_mem_toDigits (by omega) (by omega) h'
        simp only [List.mem_cons, List.not_mem_nil, or_false] at hp
        rcases hp with rfl | rfl | rfl | rfl <;>
        · simp at hcp
          rcases hcp with rfl | rfl | rfl | rfl | rfl <;> simp [Char.isDigit] at this
  unfold classify
  simp only
  rw [if_neg, if_neg, if_neg]
  · cases h1 : matchCall "VGET".toList (name ++ "_" ++ toString k).toList with
    | some r => exact absurd (matchCall_some_prefix h1).isInfix (hno "VGET(" (by simp))
    | none =>
      cases h2 : matchCall "VSET".toList (name ++ "_" ++ toString k).toList with
      | some r => exact absurd (matchCall_some_prefix h2).isInfix (hno "VSET(" (by simp))
      | none => rfl
  · rw [infixOf_iff]; exact hno "DUP" (by simp)
  · rw [infixOf_iff]; exact hno "SWAP" (by simp)
  · intro e
    have : '_' ∈ ("POP" : String).toList := by rw [← e, hl]; simp
    simp at this

end Grey.Sfs
