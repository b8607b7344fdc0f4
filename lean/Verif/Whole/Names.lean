/-
Names of variables, tags and places to return to are different from the names which the later phases invent.
-/
import Verif.Lower.Fine
import Verif.Lower.Env
import Verif.Program.Spec
import Verif.Front.Part
import Verif.Common.Names
namespace Grey.Whole
open List Grey.Cfg Grey.Lower Grey.Sfs Grey.Program

theorem head_ne {x y : String} (h : x.toList.head? ≠ y.toList.head?) : x ≠ y := fun e => h (by rw [e])

theorem head_append {a x : String} {c : Char} {l : List Char} (h : a.toList = c :: l) : (a ++ x).toList.head? = some c := by
  rw [String.toList_append, h]; rfl

theorem head_v (n : Nat) : ("v" ++ toString n).toList.head? = some 'v' := head_append (l := []) (by decide)
theorem head_out (f : String) : ("out_" ++ f).toList.head? = some 'o' := head_append (l := ['u', 't', '_']) (by decide)
theorem head_a (n : Nat) : ("a" ++ toString n).toList.head? = some 'a' := head_append (l := []) (by decide)
theorem head_b (n : Nat) : (Layout.pseudoName n).toList.head? = some 'b' := head_append (a := "b") (l := []) (by decide)
theorem head_s (n : Nat) : ("s" ++ toString n).toList.head? = some 's' := head_append (l := []) (by decide)

theorem head_const {x : String} (h : Cfg.isConst x = true) : x.toList.head? = some '0' := by
  obtain ⟨l, hl⟩ := isConst_literal.1 h
  rw [hl]; rfl

theorem head_digit (n : Nat) : ∃ c, (toString n).toList.head? = some c ∧ c.isDigit = true := by
  cases h : (toString n).toList with
  | nil =>
    have h1 : (Nat.repr n).toList = [] := h
    have h2 : Nat.toDigits 10 n = [] := by
      have : (Nat.repr n).toList = Nat.toDigits 10 n := by simp [Nat.repr]
      rw [← this, h1]
    exact absurd h2 (by
      have := Nat.length_toDigits_pos (b := 10) (n := n)
      intro h3
      rw [h3] at this
      simp at this)
  | cons c l => exact ⟨c, rfl, Front.digits_all (n := n) (by rw [h]; simp)⟩

/-- The first letter is none of those that invented names begin with. -/
theorem fresh_of_head {x : String} {c : Char} (h : x.toList.head? = some c) (hc : c ≠ 'a' ∧ c ≠ 'b' ∧ c ≠ 's') :
    ¬ Padding x ∧ ¬ Generated x ∧ x ≠ "bottom" := by
  refine ⟨?_, ?_, ?_⟩
  · rintro (⟨n, rfl⟩ | ⟨n, rfl⟩)
    · rw [head_a] at h; exact hc.1 (Option.some.inj h).symm
    · rw [head_b] at h; exact hc.2.1 (Option.some.inj h).symm
  · rintro ⟨n, rfl⟩
    rw [head_s] at h; exact hc.2.2 (Option.some.inj h).symm
  · rintro rfl
    have : ("bottom" : String).toList.head? = some 'b' := by decide
    rw [this] at h; exact hc.2.1 (Option.some.inj h).symm

theorem neat_fresh {x : String} (h : Neat x) : ¬ Padding x ∧ ¬ Generated x ∧ x ≠ "bottom" := by
  rcases h with h | ⟨n, rfl⟩
  · exact fresh_of_head (head_const h) (by decide)
  · exact fresh_of_head (head_v n) (by decide)

theorem neat_proper {x : String} (h : Neat x) (hc : Cfg.isConst x = false) : Proper x ∧ ¬ Padding x :=
  ⟨⟨(neat_fresh h).2.1, not_literal hc, (neat_fresh h).2.2⟩, (neat_fresh h).1⟩

theorem digit_ne {c : Char} (h : c.isDigit = true) : c ≠ 'a' ∧ c ≠ 'b' ∧ c ≠ 's' := by
  refine ⟨?_, ?_, ?_⟩ <;> (rintro rfl; exact absurd h (by decide))

theorem tag_fresh (n : Nat) : ¬ Padding (toString n) ∧ ¬ Generated (toString n) ∧ toString n ≠ "bottom" := by
  obtain ⟨c, h, hc⟩ := head_digit n
  exact fresh_of_head h (digit_ne hc)

theorem tag_proper (n : Nat) : Proper (toString n) ∧ ¬ Padding (toString n) := by
  refine ⟨⟨(tag_fresh n).2.1, ?_, (tag_fresh n).2.2⟩, (tag_fresh n).1⟩
  rintro ⟨l, hl⟩
  exact absurd (Front.digits_all (n := n) (c := 'x') (by rw [hl]; simp)) (by decide)

theorem out_proper (f : String) : Proper ("out_" ++ f) ∧ ¬ Padding ("out_" ++ f) := by
  obtain ⟨h1, h2, h3⟩ := fresh_of_head (head_out f) (by decide)
  refine ⟨⟨h2, ?_, h3⟩, h1⟩
  rintro ⟨l, hl⟩
  have := head_out f
  rw [hl] at this
  cases this

theorem neat_ne_tag {x : String} (h : Neat x) (n : Nat) : x ≠ toString n := by
  rcases h with h | ⟨m, rfl⟩
  · exact (Front.plain_const h).1 n
  · exact (Front.plain_new m).1 n

theorem neat_ne_out {x : String} (h : Neat x) (f : String) : x ≠ "out_" ++ f := by
  rcases h with h | ⟨m, rfl⟩
  · exact (Front.plain_const h).2.1 f
  · exact (Front.plain_new m).2.1 f

theorem tag_ne_out (n : Nat) (f : String) : toString n ≠ "out_" ++ f := by
  obtain ⟨c, h, hc⟩ := head_digit n
  refine head_ne ?_
  rw [h, head_out]
  rintro h'
  cases h'
  exact absurd hc (by decide)

theorem tag_inj {m n : Nat} (h : toString m = toString n) : m = n := Names.toString_inj h

end Grey.Whole
