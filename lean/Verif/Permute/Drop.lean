import Verif.Permute.Model
import Verif.SymExec.Lemmas
import Verif.SymExec.Spec
import Verif.SymExec.Exact

/-!
# Dropping instructions without effect
-/

namespace Grey.Permute
open SymExec

/-- A schedule whose opcodes `SWAP1` and `DUP1` have the id of the same name, as the scheduler emits them. -/
def Named (r : List (String × String)) : Prop := ∀ p ∈ r, (p.1 = "SWAP1" → p.2 = "SWAP1") ∧ (p.1 = "DUP1" → p.2 = "DUP1")

/-- Executing ids one after the other. -/
inductive Path {α : Type} (R : String → α → α → Prop) : List String → α → α → Prop
  | nil (a) : Path R [] a a
  | cons {s ss a b c} (h : R s a b) (t : Path R ss b c) : Path R (s :: ss) a c

theorem Path.append_iff {α : Type} {R : String → α → α → Prop} {x y : List String} {a c : α} :
    Path R (x ++ y) a c ↔ ∃ b, Path R x a b ∧ Path R y b c := by
  induction x generalizing a with
  | nil =>
    constructor
    · intro h; exact ⟨a, .nil a, h⟩
    · rintro ⟨b, h1, h2⟩; cases h1; exact h2
  | cons s ss ih =>
    constructor
    · intro h
      cases h with
      | cons h t =>
        obtain ⟨b, h1, h2⟩ := ih.1 t
        exact ⟨b, .cons h h1, h2⟩
    · rintro ⟨b, h1, h2⟩
      cases h1 with
      | cons h t => exact .cons h (ih.2 ⟨b, t, h2⟩)

theorem dropFrom_path {α : Type} {R : String → α → α → Prop}
    (hss : ∀ a b c, R "SWAP1" a b → R "SWAP1" b c → a = c)
    (hds : ∀ a b c, R "DUP1" a b → R "SWAP1" b c → b = c) (acc rs : List (String × String)) (a c : α)
    (hn : Named (acc ++ rs)) (h : Path R ((acc.reverse ++ rs).map Prod.snd) a c) :
    Path R ((dropFrom acc rs).reverse.map Prod.snd) a c := by
  induction acc, rs using dropFrom.induct with
  | case1 acc => simpa [dropFrom] using h
  | case2 r rs ih =>
    unfold dropFrom
    exact ih hn (by simpa using h)
  | case3 x acc r rs hc ih =>
    unfold dropFrom
    rw [if_pos hc]
    refine ih (fun p hp => hn p ?_) ?_
    · rcases List.mem_append.1 hp with hp | hp
      · exact List.mem_append.2 (.inl (List.mem_cons_of_mem _ hp))
      · exact List.mem_append.2 (.inr (List.mem_cons_of_mem _ hp))
    · have hx := (hn x (by simp)).1 hc.1
      have hr := (hn r (by simp)).1 hc.2
      have e : ((x :: acc).reverse ++ r :: rs).map Prod.snd = acc.reverse.map Prod.snd ++ ("SWAP1" :: "SWAP1" :: rs.map Prod.snd) := by
        simp [hx, hr]
      rw [e, Path.append_iff] at h
      obtain ⟨b, h1, h2⟩ := h
      rw [List.map_append, Path.append_iff]
      refine ⟨b, h1, ?_⟩
      cases h2 with
      | cons s1 t =>
        cases t with
        | cons s2 t => rw [hss _ _ _ s1 s2]; exact t
  | case4 x acc r rs hc1 hc ih =>
    unfold dropFrom
    rw [if_neg hc1, if_pos hc]
    refine ih (fun p hp => hn p ?_) ?_
    · rcases List.mem_append.1 hp with hp | hp
      · exact List.mem_append.2 (.inl hp)
      · exact List.mem_append.2 (.inr (List.mem_cons_of_mem _ hp))
    · have hx := (hn x (by simp)).2 hc.1
      have hr := (hn r (by simp)).1 hc.2
      have e : ((x :: acc).reverse ++ r :: rs).map Prod.snd = acc.reverse.map Prod.snd ++ ("DUP1" :: "SWAP1" :: rs.map Prod.snd) := by
        simp [hx, hr]
      have e2 : ((x :: acc).reverse ++ rs).map Prod.snd = acc.reverse.map Prod.snd ++ ("DUP1" :: rs.map Prod.snd) := by
        simp [hx]
      rw [e, Path.append_iff] at h
      obtain ⟨b, h1, h2⟩ := h
      rw [e2, Path.append_iff]
      refine ⟨b, h1, ?_⟩
      cases h2 with
      | cons s1 t =>
        cases t with
        | cons s2 t =>
          refine .cons s1 ?_
          rw [hds _ _ _ s1 s2]; exact t
  | case5 x acc r rs hc1 hc2 ih =>
    unfold dropFrom
    rw [if_neg hc1, if_neg hc2]
    refine ih (fun p hp => hn p ?_) (by simpa using h)
    simp only [List.cons_append, List.mem_cons, List.mem_append] at hp ⊢
    rcases hp with hp | hp | hp | hp
    · exact .inr (.inr (.inl hp))
    · exact .inl hp
    · exact .inr (.inl hp)
    · exact .inr (.inr (.inr hp))

theorem run_iff_path {V σ : Type} {tab : List UInstr} {sem : Sem V σ} {ids : List String} {M M' : Machine V σ} :
    Run tab sem ids M M' ↔ Path (fun s M M' => ∃ o, classify s = some o ∧ SymExec.Step tab sem o M M') ids M M' := by
  constructor
  · intro h
    induction h with
    | nil M => exact .nil M
    | cons s o ss M M' M'' hc h _ ih => exact .cons ⟨o, hc, h⟩ ih
  · intro h
    induction h with
    | nil M => exact .nil M
    | cons h _ ih =>
      obtain ⟨o, hc, h⟩ := h
      exact .cons _ o _ _ _ _ hc h ih

theorem classify_swap1 : classify "SWAP1" = some (.swap 1) := by decide +kernel
theorem classify_dup1 : classify "DUP1" = some (.dup 1) := by decide +kernel

/-- C72. Dropping instructions without effect does not change what a schedule does, whatever its operations mean and wherever it starts. -/
theorem drop_run {V σ : Type} {tab : List UInstr} {sem : Sem V σ} {r : List (String × String)} {M M' : Machine V σ} (hn : Named r)
    (h : Run tab sem (r.map Prod.snd) M M') : Run tab sem ((removeUseless r).map Prod.snd) M M' := by
  rw [run_iff_path] at h ⊢
  refine dropFrom_path ?_ ?_ [] r M M' hn h
  · rintro a b c ⟨o, ho, h1⟩ ⟨o', ho', h2⟩
    rw [classify_swap1, Option.some.injEq] at ho ho'
    subst ho ho'
    cases h1 with
    | swap _ x l y t m w hl =>
      have hl : l = [] := List.length_eq_zero_iff.1 (by omega)
      subst hl
      generalize hM : (⟨y :: ([] ++ x :: t), m, w⟩ : Machine V σ) = N at h2
      cases h2 with
      | swap _ x' l' y' t' m' w' hl' =>
        have hl' : l' = [] := List.length_eq_zero_iff.1 (by omega)
        subst hl'
        simp only [List.nil_append, Machine.mk.injEq, List.cons.injEq] at hM ⊢
        obtain ⟨⟨h1, h2, h3⟩, h4, h5⟩ := hM
        exact ⟨⟨h2, h1, h3⟩, h4, h5⟩
  · rintro a b c ⟨o, ho, h1⟩ ⟨o', ho', h2⟩
    rw [classify_dup1, Option.some.injEq] at ho
    rw [classify_swap1, Option.some.injEq] at ho'
    subst ho ho'
    cases h1 with
    | dup _ l y t m w hl =>
      have hl : l = [] := List.length_eq_zero_iff.1 (by omega)
      subst hl
      generalize hM : (⟨y :: ([] ++ y :: t), m, w⟩ : Machine V σ) = N at h2
      cases h2 with
      | swap _ x' l' y' t' m' w' hl' =>
        have hl' : l' = [] := List.length_eq_zero_iff.1 (by omega)
        subst hl'
        simp only [List.nil_append, Machine.mk.injEq, List.cons.injEq] at hM ⊢
        obtain ⟨⟨h1, h2, h3⟩, h4, h5⟩ := hM
        simp [← h1, ← h2]

theorem execIds_iff_path {tab : List UInstr} {ids : List String} {st st' : List Var} :
    execIds tab ids st = some st' ↔ Path (fun s a b => execId tab s a = some b) ids st st' := by
  induction ids generalizing st with
  | nil =>
    constructor
    · intro h
      simp only [execIds, Option.some.injEq] at h
      rw [h]; exact .nil _
    · intro h; cases h; rfl
  | cons s ss ih =>
    simp only [execIds]
    constructor
    · intro h
      obtain ⟨b, h1, h2⟩ := Option.bind_eq_some_iff.1 h
      exact .cons h1 (ih.1 h2)
    · intro h
      cases h with
      | cons h t => exact Option.bind_eq_some_iff.2 ⟨_, h, ih.2 t⟩

theorem execId_swap1 {tab : List UInstr} {a b : List Var} (h : execId tab "SWAP1" a = some b) :
    ∃ x y t, a = x :: y :: t ∧ b = y :: x :: t := by
  unfold execId at h
  rw [classify_swap1, Option.bind_some] at h
  match a, h with
  | [], h => simp [execOp] at h
  | [x], h => simp [execOp] at h
  | x :: y :: t, h => simp only [execOp] at h; exact ⟨x, y, t, rfl, by simpa using h.symm⟩

theorem execId_dup1 {tab : List UInstr} {a b : List Var} (h : execId tab "DUP1" a = some b) :
    ∃ x t, a = x :: t ∧ b = x :: x :: t := by
  unfold execId at h
  rw [classify_dup1, Option.bind_some] at h
  match a, h with
  | [], h => simp [execOp] at h
  | x :: t, h => simp [execOp] at h; exact ⟨x, t, rfl, h.symm⟩

theorem drop_execIds {tab : List UInstr} {r : List (String × String)} {st st' : List Var} (hn : Named r)
    (h : execIds tab (r.map Prod.snd) st = some st') : execIds tab ((removeUseless r).map Prod.snd) st = some st' := by
  rw [execIds_iff_path] at h ⊢
  refine dropFrom_path ?_ ?_ [] r st st' hn h
  · intro a b c h1 h2
    obtain ⟨x, y, t, rfl, rfl⟩ := execId_swap1 h1
    obtain ⟨x', y', t', h3, rfl⟩ := execId_swap1 h2
    simp only [List.cons.injEq] at h3
    obtain ⟨rfl, rfl, rfl⟩ := h3
    rfl
  · intro a b c h1 h2
    obtain ⟨x, t, rfl, rfl⟩ := execId_dup1 h1
    obtain ⟨x', y', t', h3, rfl⟩ := execId_swap1 h2
    simp only [List.cons.injEq] at h3
    obtain ⟨rfl, rfl, rfl⟩ := h3
    rfl

/-- Only `SWAP1` is dropped. -/
theorem dropFrom_filter (acc rs : List (String × String)) :
    (dropFrom acc rs).reverse.filter (fun p => p.1 ≠ "SWAP1") = (acc.reverse ++ rs).filter (fun p => p.1 ≠ "SWAP1") := by
  induction acc, rs using dropFrom.induct with
  | case1 acc => simp [dropFrom]
  | case2 r rs ih => unfold dropFrom; simpa using ih
  | case3 x acc r rs hc ih =>
    unfold dropFrom
    rw [if_pos hc, ih]
    simp [List.filter_append, List.filter_cons, hc.1, hc.2]
  | case4 x acc r rs hc1 hc ih =>
    unfold dropFrom
    rw [if_neg hc1, if_pos hc, ih]
    simp [List.filter_append, List.filter_cons, hc.2]
  | case5 x acc r rs hc1 hc2 ih =>
    unfold dropFrom
    rw [if_neg hc1, if_neg hc2, ih]
    simp

/-- Every instruction of the result is one of the schedule. -/
theorem dropFrom_mem (acc rs : List (String × String)) : ∀ p ∈ dropFrom acc rs, p ∈ acc ∨ p ∈ rs := by
  induction acc, rs using dropFrom.induct with
  | case1 acc => intro p hp; left; simpa [dropFrom] using hp
  | case2 r rs ih =>
    intro p hp
    unfold dropFrom at hp
    rcases ih p hp with h | h
    · right; simp at h; simp [h]
    · right; simp [h]
  | case3 x acc r rs hc ih =>
    intro p hp
    unfold dropFrom at hp
    rw [if_pos hc] at hp
    rcases ih p hp with h | h
    · left; simp [h]
    · right; simp [h]
  | case4 x acc r rs hc1 hc ih =>
    intro p hp
    unfold dropFrom at hp
    rw [if_neg hc1, if_pos hc] at hp
    rcases ih p hp with h | h
    · left; exact h
    · right; simp [h]
  | case5 x acc r rs hc1 hc2 ih =>
    intro p hp
    unfold dropFrom at hp
    rw [if_neg hc1, if_neg hc2] at hp
    rcases ih p hp with h | h
    · rcases List.mem_cons.1 h with h | h
      · right; simp [h]
      · left; exact h
    · right; simp [h]

/-- The ids other than `SWAP1`. -/
theorem drop_ids_filter {r : List (String × String)} (hn : Named r) (hn' : ∀ p ∈ r, p.2 = "SWAP1" → p.1 = "SWAP1") :
    ((removeUseless r).map Prod.snd).filter (· ≠ "SWAP1") = (r.map Prod.snd).filter (· ≠ "SWAP1") := by
  have key : ∀ l : List (String × String), (∀ p ∈ l, p ∈ r) →
      (l.map Prod.snd).filter (· ≠ "SWAP1") = (l.filter (fun p => p.1 ≠ "SWAP1")).map Prod.snd := by
    intro l hl
    induction l with
    | nil => rfl
    | cons p l ih =>
      have hi := ih (fun q hq => hl q (List.mem_cons_of_mem _ hq))
      have hp := hl p List.mem_cons_self
      by_cases h1 : p.1 = "SWAP1"
      · have h2 := (hn p hp).1 h1
        simp only [List.map_cons, List.filter_cons, h1, h2]
        simpa using hi
      · have h2 : p.2 ≠ "SWAP1" := fun h => h1 (hn' p hp h)
        simp only [List.map_cons, List.filter_cons]
        simp [h1, h2]
        simpa using hi
  rw [key r (fun p hp => hp), key (removeUseless r), removeUseless, dropFrom_filter]
  · simp
  · intro p hp
    have := dropFrom_mem [] r p (by simpa [removeUseless] using hp)
    simpa using this

/-- No `x` at or after a `y`. -/
def NoAfter (x y : String) : List String → Prop
  | [] => True
  | a :: l => (a = y → x ∉ a :: l) ∧ NoAfter x y l

theorem noAfter_iff (x y : String) (l : List String) :
    (∀ i j : Nat, l[i]? = some x → l[j]? = some y → i < j) ↔ NoAfter x y l := by
  induction l with
  | nil => simp [NoAfter]
  | cons a l ih =>
    unfold NoAfter
    rw [← ih]
    constructor
    · intro h
      refine ⟨?_, fun i j hi hj => ?_⟩
      · rintro rfl hx
        obtain ⟨i, hi, hi2⟩ := List.mem_iff_getElem.1 hx
        have := h i 0 (by rw [List.getElem?_eq_getElem hi, hi2]) rfl
        omega
      · have := h (i + 1) (j + 1) (by simpa using hi) (by simpa using hj)
        omega
    · rintro ⟨h1, h2⟩ i j hi hj
      cases j with
      | zero =>
        simp only [List.getElem?_cons_zero, Option.some.injEq] at hj
        exact absurd (List.mem_of_getElem? hi) (h1 hj)
      | succ j =>
        cases i with
        | zero => omega
        | succ i =>
          have := h2 i j (by simpa using hi) (by simpa using hj)
          omega

theorem noAfter_filter {x y : String} {p : String → Bool} (hx : p x = true) (hy : p y = true) (l : List String) :
    NoAfter x y (l.filter p) ↔ NoAfter x y l := by
  induction l with
  | nil => simp
  | cons a l ih =>
    rw [List.filter_cons]
    split
    · rename_i ha
      simp only [NoAfter, ih, List.mem_cons, List.mem_filter, hx, and_true]
    · rename_i ha
      have hay : a ≠ y := fun h => ha (by rw [h]; exact hy)
      simp only [NoAfter, ih, hay, false_implies, true_and]

/-- C72. A schedule that the validator accepts is still accepted after dropping instructions without effect. -/
theorem drop_check {spec : SymExec.Spec} {r : List (String × String)} {junk : Bool} (hn : Named r)
    (hn' : ∀ p ∈ r, p.2 = "SWAP1" → p.1 = "SWAP1")
    (hd : ∀ d ∈ spec.deps, d.1 ≠ "SWAP1" ∧ d.2 ≠ "SWAP1") (hu : ∀ u ∈ spec.userInstrs, u.id ≠ "SWAP1")
    (h : check spec (r.map Prod.snd) junk = true) : check spec ((removeUseless r).map Prod.snd) junk = true := by
  have hf := drop_ids_filter hn hn'
  have hmem : ∀ x, x ≠ "SWAP1" → (x ∈ (removeUseless r).map Prod.snd ↔ x ∈ r.map Prod.snd) := by
    intro x hx
    have : x ∈ ((removeUseless r).map Prod.snd).filter (· ≠ "SWAP1") ↔ x ∈ (r.map Prod.snd).filter (· ≠ "SWAP1") := by rw [hf]
    simpa only [List.mem_filter, hx, ne_eq, not_false_eq_true, decide_true, and_true] using this
  have hcount : ∀ x, x ≠ "SWAP1" → ((removeUseless r).map Prod.snd).count x = (r.map Prod.snd).count x := by
    intro x hx
    have h1 := List.count_filter (p := (· ≠ "SWAP1")) (a := x) (l := (removeUseless r).map Prod.snd) (by simpa using hx)
    have h2 := List.count_filter (p := (· ≠ "SWAP1")) (a := x) (l := r.map Prod.snd) (by simpa using hx)
    rw [← h1, ← h2, hf]
  unfold check at h ⊢
  cases he : execIds spec.userInstrs (r.map Prod.snd) spec.src with
  | none => rw [he] at h; simp at h
  | some st =>
    rw [he] at h
    rw [drop_execIds hn he]
    dsimp only at h ⊢
    simp only [Bool.and_eq_true, beq_iff_eq] at h ⊢
    obtain ⟨⟨h1, h2⟩, h3⟩ := h
    refine ⟨⟨h1, ?_⟩, ?_⟩
    · rw [checkDeps_iff] at h2 ⊢
      intro d hdm
      obtain ⟨ha, hb, hc⟩ := h2 d hdm
      obtain ⟨hx, hy⟩ := hd d hdm
      refine ⟨(hmem _ hx).2 ha, (hmem _ hy).2 hb, ?_⟩
      rw [noAfter_iff] at hc ⊢
      have e1 := noAfter_filter (p := (· ≠ "SWAP1")) (by simpa using hx) (by simpa using hy) (r.map Prod.snd)
      have e2 := noAfter_filter (p := (· ≠ "SWAP1")) (by simpa using hx) (by simpa using hy) ((removeUseless r).map Prod.snd)
      rw [← e2, hf, e1]
      exact hc
    · rw [checkOnce_iff] at h3 ⊢
      intro u hum h4 h5
      rw [hcount _ (hu u hum)]
      exact h3 u hum h4 h5

/-- C72. The result is not longer, -/
theorem drop_length (r : List (String × String)) : (removeUseless r).length ≤ r.length := by
  have key : ∀ acc rs : List (String × String), (dropFrom acc rs).length ≤ acc.length + rs.length := by
    intro acc rs
    induction acc, rs using dropFrom.induct with
    | case1 acc => simp [dropFrom]
    | case2 r rs ih => unfold dropFrom; simp at ih ⊢; omega
    | case3 x acc r rs hc ih => unfold dropFrom; rw [if_pos hc]; simp; omega
    | case4 x acc r rs hc1 hc ih => unfold dropFrom; rw [if_neg hc1, if_pos hc]; simp at ih ⊢; omega
    | case5 x acc r rs hc1 hc2 ih => unfold dropFrom; rw [if_neg hc1, if_neg hc2]; simp at ih ⊢; omega
  have := key [] r
  simpa [removeUseless] using this

/-- Two instructions one after the other, of which the second one is dropped. -/
def Pointless (a b : String × String) : Prop := (a.1 = "SWAP1" ∨ a.1 = "DUP1") ∧ b.1 = "SWAP1"

/-- C72. and nothing of this kind is left in it. -/
theorem drop_clean (r pre post : List (String × String)) (a b : String × String)
    (h : removeUseless r = pre ++ a :: b :: post) : ¬ Pointless a b := by
  have key : ∀ acc rs : List (String × String), (∀ pre a b post, acc = pre ++ b :: a :: post → ¬ Pointless a b) →
      ∀ pre a b post, dropFrom acc rs = pre ++ b :: a :: post → ¬ Pointless a b := by
    intro acc rs
    induction acc, rs using dropFrom.induct with
    | case1 acc => intro h; simpa [dropFrom] using h
    | case2 r rs ih =>
      intro h
      unfold dropFrom
      refine ih ?_
      intro pre a b post e
      have := congrArg List.length e
      simp at this
      omega
    | case3 x acc r rs hc ih =>
      intro h
      unfold dropFrom
      rw [if_pos hc]
      exact ih (fun pre a b post e => h (x :: pre) a b post (by rw [e]; rfl))
    | case4 x acc r rs hc1 hc ih =>
      intro h
      unfold dropFrom
      rw [if_neg hc1, if_pos hc]
      exact ih h
    | case5 x acc r rs hc1 hc2 ih =>
      intro h
      unfold dropFrom
      rw [if_neg hc1, if_neg hc2]
      refine ih ?_
      intro pre a b post e
      cases pre with
      | nil =>
        simp only [List.nil_append, List.cons.injEq] at e
        obtain ⟨rfl, rfl, rfl⟩ := e
        rintro ⟨h1 | h1, h2⟩
        · exact hc1 ⟨h1, h2⟩
        · exact hc2 ⟨h1, h2⟩
      | cons p pre =>
        simp only [List.cons_append, List.cons.injEq] at e
        exact h pre a b post e.2
  refine key [] r (by simp) post.reverse a b pre.reverse ?_
  have := congrArg List.reverse h
  simpa [removeUseless] using this

/-- A schedule for `[b + a]` from `[a, b]`: the swaps cancel out, also the one that comes to lie after `DUP1`. -/
example : removeUseless ([("SWAP1", "SWAP1"), ("SWAP1", "SWAP1"), ("DUP1", "DUP1"), ("SWAP1", "SWAP1"), ("ADD", "ADD_0"),
    ("SWAP1", "SWAP1"), ("SWAP1", "SWAP1")]) = [("DUP1", "DUP1"), ("ADD", "ADD_0")] := by decide +kernel

/-- It meets the hypotheses of `drop_check`. -/
example : ∃ (spec : SymExec.Spec) (r : List (String × String)), Named r ∧ (∀ p ∈ r, p.2 = "SWAP1" → p.1 = "SWAP1") ∧
    (∀ d ∈ spec.deps, d.1 ≠ "SWAP1" ∧ d.2 ≠ "SWAP1") ∧ (∀ u ∈ spec.userInstrs, u.id ≠ "SWAP1") ∧
    check spec (r.map Prod.snd) false = true ∧ removeUseless r ≠ r :=
  ⟨⟨[⟨"ADD_0", ["a", "a"], ["c"], true, false, "ADD"⟩, ⟨"SSTORE_0", ["c", "b"], [], false, true, "SSTORE"⟩], ["a", "b"], [],
      [("ADD_0", "SSTORE_0")]⟩,
    [("SWAP1", "SWAP1"), ("SWAP1", "SWAP1"), ("DUP1", "DUP1"), ("SWAP1", "SWAP1"), ("ADD", "ADD_0"), ("SSTORE", "SSTORE_0")],
    by unfold Named; decide +kernel, by decide +kernel, by decide +kernel, by decide +kernel, by decide +kernel, by decide +kernel⟩

end Grey.Permute
