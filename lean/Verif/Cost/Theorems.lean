import Verif.Cost.Model
import Verif.Common.Graph
import Mathlib.Logic.Relation

/-!
# C38: the cost estimation terminates, is exact, and flags exactly the recursive functions
-/

namespace Grey.Cost

open Relation

variable (fd : String → Option Fun) (pushBytes : String → Nat)

/-! ## Specification -/

/-- `f` calls `g`: some instruction of some block of the function `f` is the function `g`. -/
def Calls (f g : String) : Prop := ∃ F, fd f = some F ∧ (∃ b ∈ F.blocks, ∃ i ∈ b, i.op = g) ∧ (fd g).isSome

/-- `f` can reach, by calls, a function that can reach itself by at least one call. -/
def Recursive (f : String) : Prop := ∃ g, ReflTransGen (Calls fd) f g ∧ TransGen (Calls fd) g g

/-- What happens to a value, newest event first in a history. -/
inductive Event where
  | made (v : String)
  | used (v : String)

/-- The value was made (an argument of the function, or the result of an instruction) and not used since. -/
def Unused (v : String) : List Event → Bool
  | [] => false
  | .made w :: h => if w = v then true else Unused v h
  | .used w :: h => if w = v then false else Unused v h

/-- The gas and bytes of bringing one argument: a literal is pushed (`PUSH0` for `0x00`), a value not used since it was
made is free, any other value is duplicated. -/
def argItem (h : List Event) (a : String) : Nat × Nat :=
  if "0x".toList.isPrefixOf a.toList then (if a = "0x00" then (2, 1) else (3, 1 + pushBytes a))
  else if Unused a h then (0, 0) else (3, 1)

/-- The gas and bytes of the arguments of an instruction, and the history after it. -/
def argItems : List Event → List String → List (Nat × Nat)
  | _, [] => []
  | h, a :: as => argItem pushBytes h a :: argItems (.used a :: h) as

/-- The items of the bill of a list of instructions: for each instruction, its operation (the cost of the function when it
is a call) and its arguments. -/
def items (cost : String → Cost) : List Event → List Ins → List Cost
  | _, [] => []
  | h, i :: is =>
    (if (fd i.op).isSome then cost i.op else (some i.gas, i.bytes)) ::
      (argItems pushBytes h i.inArgs).map (fun x => (some x.1, x.2)) ++
      items cost ((i.outArgs.map Event.made).reverse ++ ((i.inArgs.map Event.used).reverse ++ h)) is

/-- The bill of a function. -/
def funItems (cost : String → Cost) (F : Fun) : List Cost :=
  items fd pushBytes cost (F.args.map Event.made) F.blocks.flatten

/-! ## Lemmas -/

/-- The cost of the instructions as the code adds it up, with the calls looked up in a finished table. -/
def specList (cost : String → Cost) : List Ins → List String → Cost
  | [], _ => (some 0, 0)
  | i :: is, prev =>
    let a := argLoop pushBytes i.inArgs prev
    cadd (cadd (if (fd i.op).isSome then cost i.op else (some i.gas, i.bytes)) (some a.1, a.2.1))
      (specList cost is (addOuts a.2.2 i.outArgs))

/-- The same for a function. -/
def specFun (cost : String → Cost) (F : Fun) : Cost := specList fd pushBytes cost F.blocks.flatten (addOuts [] F.args)


/-- The introduced values after the instructions. -/
def prevAfter : List Ins → List String → List String
  | [], prev => prev
  | i :: is, prev => prevAfter is (addOuts (argLoop pushBytes i.inArgs prev).2.2 i.outArgs)

theorem cadd_zero (c : Cost) : cadd (some 0, 0) c = c := by
  obtain ⟨_ | g, s⟩ := c <;> simp [cadd, gadd]

theorem cadd_assoc (a b c : Cost) : cadd (cadd a b) c = cadd a (cadd b c) := by
  obtain ⟨_ | g, s⟩ := a <;> obtain ⟨_ | g', s'⟩ := b <;> obtain ⟨_ | g'', s''⟩ := c <;> simp [cadd, gadd] <;> omega

theorem cadd_fin {a b : Cost} (h : (cadd a b).1 ≠ none) : a.1 ≠ none ∧ b.1 ≠ none := by
  obtain ⟨_ | g, s⟩ := a <;> obtain ⟨_ | g', s'⟩ := b <;> simp [cadd, gadd] at h ⊢

theorem specList_append (cost : String → Cost) (a b : List Ins) (prev : List String) :
    specList fd pushBytes cost (a ++ b) prev =
      cadd (specList fd pushBytes cost a prev) (specList fd pushBytes cost b (prevAfter pushBytes a prev)) := by
  induction a generalizing prev with
  | nil => simp [specList, prevAfter, cadd_zero]
  | cons i is ih => simp only [List.cons_append, specList, prevAfter, ih, cadd_assoc]

theorem prevAfter_append (a b : List Ins) (prev : List String) :
    prevAfter pushBytes (a ++ b) prev = prevAfter pushBytes b (prevAfter pushBytes a prev) := by
  induction a generalizing prev with
  | nil => rfl
  | cons i is ih => simp only [List.cons_append, prevAfter, ih]

theorem specList_congr (c c' : String → Cost) (is : List Ins) (h : ∀ i ∈ is, (fd i.op).isSome → c i.op = c' i.op)
    (prev : List String) : specList fd pushBytes c is prev = specList fd pushBytes c' is prev := by
  induction is generalizing prev with
  | nil => rfl
  | cons i is ih =>
    have h1 := h i (by simp)
    simp only [specList]
    rw [ih (fun j hj => h j (by simp [hj]))]
    by_cases hd : (fd i.op).isSome
    · rw [if_pos hd, if_pos hd, h1 hd]
    · rw [if_neg hd, if_neg hd]

/-- Cost read from a table. -/
def look (tab : String → Option Cost) (g : String) : Cost := (tab g).getD (none, 0)

theorem unused_used (a v : String) (h : List Event) : Unused v (.used a :: h) = (if a = v then false else Unused v h) := rfl

theorem argLoop_items (as : List String) : ∀ (prev : List String) (h : List Event),
    (∀ v, ¬"0x".toList.isPrefixOf v.toList = true → (v ∈ prev ↔ Unused v h = true)) →
      (argLoop pushBytes as prev).1 = ((argItems pushBytes h as).map Prod.fst).sum ∧
      (argLoop pushBytes as prev).2.1 = ((argItems pushBytes h as).map Prod.snd).sum ∧
      ∀ v, ¬"0x".toList.isPrefixOf v.toList = true →
        (v ∈ (argLoop pushBytes as prev).2.2 ↔ Unused v ((as.map Event.used).reverse ++ h) = true) := by
  induction as with
  | nil => intro prev h hp; exact ⟨rfl, rfl, by simpa [argLoop] using hp⟩
  | cons a as ih =>
    intro prev h hp
    simp only [argItems, List.map_cons, List.sum_cons, List.reverse_cons, List.append_assoc, List.singleton_append]
    rw [argLoop]
    by_cases hx : "0x".toList.isPrefixOf a.toList = true
    · have hp' : ∀ v, ¬"0x".toList.isPrefixOf v.toList = true → (v ∈ prev ↔ Unused v (.used a :: h) = true) := by
        intro v hv
        rw [unused_used, if_neg (fun e : a = v => hv (e ▸ hx))]
        exact hp v hv
      obtain ⟨h1, h2, h3⟩ := ih prev _ hp'
      rw [if_pos hx]
      simp only [argItem, if_pos hx]
      refine ⟨?_, ?_, h3⟩
      · rw [h1]; split <;> simp <;> omega
      · rw [h2]; split <;> simp <;> omega
    · rw [if_neg hx]
      simp only [argItem, if_neg hx]
      by_cases hm : a ∈ prev
      · rw [if_pos hm]
        have hp' : ∀ v, ¬"0x".toList.isPrefixOf v.toList = true →
            (v ∈ prev.filter (· ≠ a) ↔ Unused v (.used a :: h) = true) := by
          intro v hv
          rw [unused_used]
          by_cases e : a = v
          · simp [e]
          · rw [if_neg e, ← hp v hv]
            simp [Ne.symm e]
        obtain ⟨h1, h2, h3⟩ := ih _ _ hp'
        rw [if_pos ((hp a hx).mp hm)]
        exact ⟨by rw [h1]; simp, by rw [h2]; simp, h3⟩
      · rw [if_neg hm]
        have hp' : ∀ v, ¬"0x".toList.isPrefixOf v.toList = true → (v ∈ prev ↔ Unused v (.used a :: h) = true) := by
          intro v hv
          rw [unused_used]
          by_cases e : a = v
          · subst e; simp [hm]
          · rw [if_neg e]; exact hp v hv
        obtain ⟨h1, h2, h3⟩ := ih _ _ hp'
        rw [if_neg (fun e => hm ((hp a hx).mpr e))]
        exact ⟨by simp only; rw [h1]; omega, by simp only; rw [h2]; omega, h3⟩

theorem mem_addOuts (outs : List String) : ∀ (prev : List String) (v : String),
    v ∈ addOuts prev outs ↔ v ∈ outs ∨ v ∈ prev := by
  induction outs with
  | nil => intro prev v; simp [addOuts]
  | cons o outs ih =>
    intro prev v
    have := ih (if o ∈ prev then prev else o :: prev) v
    simp only [addOuts, List.foldl_cons] at this ⊢
    rw [this]
    by_cases ho : o ∈ prev
    · rw [if_pos ho]
      constructor
      · rintro (h | h)
        · exact .inl (by simp [h])
        · exact .inr h
      · rintro (h | h)
        · rcases List.mem_cons.mp h with rfl | h
          · exact .inr ho
          · exact .inl h
        · exact .inr h
    · rw [if_neg ho]
      simp only [List.mem_cons]
      constructor
      · rintro (h | h | h)
        · exact .inl (.inr h)
        · exact .inl (.inl h)
        · exact .inr h
      · rintro ((h | h) | h)
        · exact .inr (.inl h)
        · exact .inl h
        · exact .inr (.inr h)

theorem unused_made (outs : List String) (h : List Event) (v : String) :
    Unused v ((outs.map Event.made) ++ h) = true ↔ v ∈ outs ∨ Unused v h = true := by
  induction outs with
  | nil => simp
  | cons o outs ih =>
    simp only [List.map_cons, List.cons_append, Unused]
    by_cases e : o = v
    · simp [e]
    · rw [if_neg e, ih]
      simp [Ne.symm e]

theorem gas_add {a b : Cost} (h : (cadd a b).1 ≠ none) : (cadd a b).1 = some (a.1.getD 0 + b.1.getD 0) := by
  obtain ⟨_ | g, s⟩ := a <;> obtain ⟨_ | g', s'⟩ := b <;> simp [cadd, gadd] at h ⊢

/-- The cost added up by the code is the sum of the items of the bill. -/
theorem specList_items (cost : String → Cost) (is : List Ins) : ∀ (prev : List String) (h : List Event),
    (∀ v, ¬"0x".toList.isPrefixOf v.toList = true → (v ∈ prev ↔ Unused v h = true)) →
    (specList fd pushBytes cost is prev).1 ≠ none →
      (specList fd pushBytes cost is prev).1 = some ((items fd pushBytes cost h is).map (fun c => c.1.getD 0)).sum ∧
      (specList fd pushBytes cost is prev).2 = ((items fd pushBytes cost h is).map Prod.snd).sum := by
  induction is with
  | nil => intro prev h _ _; exact ⟨rfl, rfl⟩
  | cons i is ih =>
    intro prev h hp hf
    obtain ⟨h1, h2, h3⟩ := argLoop_items pushBytes i.inArgs prev h hp
    simp only [specList] at hf ⊢
    obtain ⟨hf1, hf2⟩ := cadd_fin hf
    have hp' : ∀ v, ¬"0x".toList.isPrefixOf v.toList = true →
        (v ∈ addOuts (argLoop pushBytes i.inArgs prev).2.2 i.outArgs ↔
          Unused v ((i.outArgs.map Event.made).reverse ++ ((i.inArgs.map Event.used).reverse ++ h)) = true) := by
      intro v hv
      rw [mem_addOuts, h3 v hv, ← List.map_reverse (f := Event.made), unused_made, List.mem_reverse]
    obtain ⟨g1, g2⟩ := ih _ _ hp' hf2
    rw [gas_add hf, gas_add hf1, g1]
    refine ⟨?_, ?_⟩
    · simp only [items, List.map_cons, List.map_append, List.cons_append, List.sum_cons, List.sum_append, List.map_map,
        Option.getD_some]
      rw [h1]
      have : (argItems pushBytes h i.inArgs).map ((fun c : Cost => c.1.getD 0) ∘ fun x => (some x.1, x.2)) =
          (argItems pushBytes h i.inArgs).map Prod.fst := by
        apply List.map_congr_left; intro x _; rfl
      rw [this]
      congr 1; omega
    · simp only [cadd] at g2 ⊢
      rw [g2]
      simp only [items, List.map_cons, List.map_append, List.cons_append, List.sum_cons, List.sum_append, List.map_map]
      rw [h2]
      have : (argItems pushBytes h i.inArgs).map (Prod.snd ∘ fun x => ((some x.1 : Gas), x.2)) =
          (argItems pushBytes h i.inArgs).map Prod.snd := by
        apply List.map_congr_left; intro x _; rfl
      rw [this]
      omega

/-! ## The invariant of the traversal -/

/-- `x` is finished, with a finite cost. -/
def Good (tab : String → Option Cost) (S : List String) (x : String) : Prop :=
  x ∉ S ∧ ∃ c, tab x = some c ∧ c.1 ≠ none

structure Inv (st : St) (S : List String) : Prop where
  done : ∀ x ∈ st.trav, x ∈ S ∨ (st.tab x).isSome
  sub : ∀ x ∈ S, x ∈ st.trav
  dom : ∀ x c, st.tab x = some c → (fd x).isSome
  open_ : ∀ x ∈ S, ∀ c, st.tab x = some c → c.1 = none ∧ Recursive fd x
  inf : ∀ x c, x ∉ S → st.tab x = some c → c.1 = none → Recursive fd x
  acc : ∀ x c, x ∉ S → st.tab x = some c → c.1 ≠ none → Acc (fun a b => Calls fd b a) x
  callees : ∀ x c, x ∉ S → st.tab x = some c → c.1 ≠ none → ∀ y, Calls fd x y → Good st.tab S y
  eqn : ∀ x c F, x ∉ S → st.tab x = some c → c.1 ≠ none → fd x = some F →
    c = specFun fd pushBytes (look st.tab) F

/-- How the state grows. -/
structure Ext (S : List String) (a b : St) : Prop where
  keep : ∀ x c, x ∉ S → a.tab x = some c → b.tab x = some c
  trav : ∀ x ∈ a.trav, x ∈ b.trav

theorem Ext.refl (S : List String) (a : St) : Ext S a a := ⟨fun _ _ _ h => h, fun _ h => h⟩

theorem Ext.trans {S : List String} {a b c : St} (h : Ext S a b) (h' : Ext S b c) : Ext S a c :=
  ⟨fun x k hx hk => h'.keep x k hx (h.keep x k hx hk), fun x hx => h'.trav x (h.trav x hx)⟩

/-- What one call guarantees. -/
def CallOk (S : List String) (g : String) (st : St) (r : Option (Cost × St)) : Prop :=
  ∃ c st', r = some (c, st') ∧ Inv fd pushBytes st' S ∧ Ext S st st' ∧ st'.tab g = some c ∧
    (c.1 = none → Recursive fd g) ∧ (c.1 ≠ none → g ∉ S)

/-- What a sequence of instructions of the function `f` guarantees. -/
def SeqOk (f : String) (S : List String) (is : List Ins) (st : St) (prev : List String)
    (r : Option (Cost × St × List String)) : Prop :=
  ∃ c st', r = some (c, st', prevAfter pushBytes is prev) ∧ Inv fd pushBytes st' (f :: S) ∧ Ext (f :: S) st st' ∧
    (c.1 = none → Recursive fd f) ∧
    (c.1 ≠ none → c = specList fd pushBytes (look st'.tab) is prev ∧
      ∀ i ∈ is, (fd i.op).isSome → Good st'.tab (f :: S) i.op)

theorem Good.ext {S : List String} {a b : St} {x : String} (h : Good a.tab S x) (e : Ext S a b) : Good b.tab S x :=
  let ⟨h1, c, h2, h3⟩ := h
  ⟨h1, c, e.keep x c h1 h2, h3⟩

theorem look_ext {S : List String} {a b : St} {x : String} (h : Good a.tab S x) (e : Ext S a b) :
    look a.tab x = look b.tab x := by
  obtain ⟨h1, c, h2, h3⟩ := h
  simp [look, h2, e.keep x c h1 h2]

theorem recursive_of_call {f g : String} (h : Calls fd f g) (hg : Recursive fd g) : Recursive fd f := by
  obtain ⟨k, h1, h2⟩ := hg
  exact ⟨k, ReflTransGen.head h h1, h2⟩

section
variable {fd pushBytes}

/-- Joining two consecutive sequences. -/
theorem SeqOk.append {f : String} {S : List String} {a b : List Ins} {st : St} {prev : List String}
    {c : Cost} {st' : St} {c' : Cost} {st'' : St}
    (hi : Inv fd pushBytes st'' (f :: S)) (e : Ext (f :: S) st st') (e' : Ext (f :: S) st' st'')
    (h1 : c.1 = none → Recursive fd f)
    (h2 : c.1 ≠ none → c = specList fd pushBytes (look st'.tab) a prev ∧
      ∀ i ∈ a, (fd i.op).isSome → Good st'.tab (f :: S) i.op)
    (h1' : c'.1 = none → Recursive fd f)
    (h2' : c'.1 ≠ none → c' = specList fd pushBytes (look st''.tab) b (prevAfter pushBytes a prev) ∧
      ∀ i ∈ b, (fd i.op).isSome → Good st''.tab (f :: S) i.op) :
    SeqOk fd pushBytes f S (a ++ b) st prev
      (some (cadd c c', st'', prevAfter pushBytes b (prevAfter pushBytes a prev))) := by
  refine ⟨_, st'', by rw [prevAfter_append], hi, e.trans e', ?_, ?_⟩
  · intro h
    by_cases hc : c.1 = none
    · exact h1 hc
    · apply h1'
      obtain ⟨_ | g, s⟩ := c
      · exact absurd rfl hc
      · obtain ⟨_ | g', s'⟩ := c'
        · rfl
        · simp [cadd, gadd] at h
  · intro h
    obtain ⟨hc, hc'⟩ := cadd_fin h
    obtain ⟨e1, g1⟩ := h2 hc
    obtain ⟨e2, g2⟩ := h2' hc'
    refine ⟨?_, ?_⟩
    · rw [specList_append, e2]
      congr 1
      rw [e1]
      exact specList_congr fd pushBytes _ _ _ (fun i hi hd => look_ext (g1 i hi hd) e') _
    · intro i hi hd
      rcases List.mem_append.mp hi with hi | hi
      · exact (g1 i hi hd).ext e'
      · exact g2 i hi hd

/-- One instruction. -/
theorem costIns_ok {f : String} {S : List String} (call : String → St → Option (Cost × St)) (fuel : Nat) (U : List String)
    (hcall : ∀ g st, (fd g).isSome → Inv fd pushBytes st (f :: S) → (∀ x ∈ f :: S, TransGen (Calls fd) x g) →
      Graph.left U st.trav < fuel → CallOk fd pushBytes (f :: S) g st (call g st))
    (hS : ∀ x ∈ f :: S, ReflTransGen (Calls fd) x f)
    (i : Ins) (hi : (fd i.op).isSome → Calls fd f i.op) (st : St) (prev : List String)
    (inv : Inv fd pushBytes st (f :: S)) (hf : Graph.left U st.trav < fuel) :
    SeqOk fd pushBytes f S [i] st prev (costIns fd pushBytes call i st prev) := by
  have fin : ∀ (c : Cost) (st' : St), Inv fd pushBytes st' (f :: S) → Ext (f :: S) st st' →
      (c.1 = none → Recursive fd f) →
      (c.1 ≠ none → c = (if (fd i.op).isSome then look st'.tab i.op else (some i.gas, i.bytes)) ∧
        ((fd i.op).isSome → Good st'.tab (f :: S) i.op)) →
      SeqOk fd pushBytes f S [i] st prev (some (cadd c (some (argLoop pushBytes i.inArgs prev).1,
        (argLoop pushBytes i.inArgs prev).2.1), st', addOuts (argLoop pushBytes i.inArgs prev).2.2 i.outArgs)) := by
    intro c st' inv' e h1 h2
    refine ⟨_, st', rfl, inv', e, ?_, ?_⟩
    · intro h
      apply h1
      obtain ⟨_ | g, s⟩ := c
      · rfl
      · simp [cadd, gadd] at h
    · intro h
      obtain ⟨hc, -⟩ := cadd_fin h
      obtain ⟨e1, e2⟩ := h2 hc
      refine ⟨?_, ?_⟩
      · simp only [specList]
        rw [← e1]
        obtain ⟨_ | g, s⟩ := c <;> simp [cadd, gadd]
      · intro j hj hd
        rw [List.mem_singleton] at hj
        subst hj
        exact e2 hd
  unfold costIns
  cases ht : st.tab i.op with
  | some c =>
    dsimp only
    have hd := inv.dom _ _ ht
    refine fin c st inv (Ext.refl _ _) ?_ ?_
    · intro h
      apply recursive_of_call fd (hi hd)
      by_cases hm : i.op ∈ f :: S
      · exact (inv.open_ _ hm _ ht).2
      · exact inv.inf _ _ hm ht h
    · intro h
      refine ⟨by simp [hd, look, ht], fun _ => ⟨fun hm => h (inv.open_ _ hm _ ht).1, c, ht, h⟩⟩
  | none =>
    dsimp only
    by_cases hd : (fd i.op).isSome
    · rw [if_pos hd]
      obtain ⟨c, st', e, inv', ext, htab, h1, h2⟩ := hcall i.op st hd inv
        (fun x hx => TransGen.tail' (hS x hx) (hi hd)) hf
      rw [e]
      exact fin c st' inv' ext (fun h => recursive_of_call fd (hi hd) (h1 h))
        (fun h => ⟨by simp [hd, look, htab], fun _ => ⟨h2 h, c, htab, h⟩⟩)
    · rw [if_neg hd]
      exact fin _ st inv (Ext.refl _ _) (fun h => by simp at h) (fun _ => ⟨by rw [if_neg hd], fun h => absurd h hd⟩)

theorem costBlock_ok {f : String} {S : List String} (call : String → St → Option (Cost × St)) (fuel : Nat)
    (U : List String)
    (hcall : ∀ g st, (fd g).isSome → Inv fd pushBytes st (f :: S) → (∀ x ∈ f :: S, TransGen (Calls fd) x g) →
      Graph.left U st.trav < fuel → CallOk fd pushBytes (f :: S) g st (call g st))
    (hS : ∀ x ∈ f :: S, ReflTransGen (Calls fd) x f) (is : List Ins) :
    (∀ i ∈ is, (fd i.op).isSome → Calls fd f i.op) → ∀ (st : St) (prev : List String),
    Inv fd pushBytes st (f :: S) → Graph.left U st.trav < fuel →
    SeqOk fd pushBytes f S is st prev (costBlock fd pushBytes call is st prev) := by
  induction is with
  | nil =>
    intro _ st prev inv _
    exact ⟨_, st, rfl, inv, Ext.refl _ _, fun h => by simp at h, fun _ => ⟨rfl, by simp⟩⟩
  | cons i is ih =>
    intro hi st prev inv hf
    obtain ⟨c, st', e, inv', ext, h1, h2⟩ := costIns_ok call fuel U hcall hS i (hi i (by simp)) st prev inv hf
    obtain ⟨c', st'', e', inv'', ext', h1', h2'⟩ := ih (fun j hj => hi j (by simp [hj])) st'
      (prevAfter pushBytes [i] prev) inv' (Nat.lt_of_le_of_lt (Graph.left_mono ext.trav) hf)
    rw [costBlock, e]
    dsimp only
    rw [e']
    exact SeqOk.append (a := [i]) inv'' ext ext' h1 h2 h1' h2'

theorem costBlocks_ok {f : String} {S : List String} (call : String → St → Option (Cost × St)) (fuel : Nat)
    (U : List String)
    (hcall : ∀ g st, (fd g).isSome → Inv fd pushBytes st (f :: S) → (∀ x ∈ f :: S, TransGen (Calls fd) x g) →
      Graph.left U st.trav < fuel → CallOk fd pushBytes (f :: S) g st (call g st))
    (hS : ∀ x ∈ f :: S, ReflTransGen (Calls fd) x f) (bs : List (List Ins)) :
    (∀ b ∈ bs, ∀ i ∈ b, (fd i.op).isSome → Calls fd f i.op) → ∀ (st : St) (prev : List String),
    Inv fd pushBytes st (f :: S) → Graph.left U st.trav < fuel →
    SeqOk fd pushBytes f S bs.flatten st prev (costBlocks fd pushBytes call bs st prev) := by
  induction bs with
  | nil =>
    intro _ st prev inv _
    exact ⟨_, st, rfl, inv, Ext.refl _ _, fun h => by simp at h, fun _ => ⟨rfl, by simp⟩⟩
  | cons b bs ih =>
    intro hi st prev inv hf
    obtain ⟨c, st', e, inv', ext, h1, h2⟩ := costBlock_ok call fuel U hcall hS b (hi b (by simp)) st prev inv hf
    obtain ⟨c', st'', e', inv'', ext', h1', h2'⟩ := ih (fun j hj => hi j (by simp [hj])) st'
      (prevAfter pushBytes b prev) inv' (Nat.lt_of_le_of_lt (Graph.left_mono ext.trav) hf)
    rw [costBlocks, e]
    dsimp only
    rw [e']
    exact SeqOk.append inv'' ext ext' h1 h2 h1' h2'

theorem costFun_ok (U : List String) (hU : ∀ x, (fd x).isSome → x ∈ U) : ∀ (fuel : Nat) (g : String) (st : St)
    (S : List String), (fd g).isSome → Inv fd pushBytes st S → (∀ x ∈ S, TransGen (Calls fd) x g) →
    Graph.left U st.trav < fuel → CallOk fd pushBytes S g st (costFun fd pushBytes fuel g st) := by
  intro fuel
  induction fuel with
  | zero => intro g st S _ _ _ h; omega
  | succ fuel ih =>
    intro g st S hd inv hS hf
    rw [costFun]
    cases ht : st.tab g with
    | some c =>
      refine ⟨c, st, rfl, inv, Ext.refl _ _, ht, ?_, ?_⟩
      · intro h
        by_cases hm : g ∈ S
        · exact (inv.open_ _ hm _ ht).2
        · exact inv.inf _ _ hm ht h
      · intro h hm
        exact h (inv.open_ _ hm _ ht).1
    | none =>
      dsimp only
      by_cases hm : g ∈ st.trav
      · rw [if_pos hm]
        have hgS : g ∈ S := by
          rcases inv.done g hm with h | h
          · exact h
          · rw [ht] at h; simp at h
        have hrec : Recursive fd g := ⟨g, .refl, hS g hgS⟩
        have hkeep : ∀ x, x ∉ S → setTab st.tab g (none, 1) x = st.tab x := by
          intro x hx
          have : x ≠ g := fun e => hx (e ▸ hgS)
          simp [setTab, this]
        have hsome : ∀ x, x ∉ S → Good st.tab S x → Good (setTab st.tab g (none, 1)) S x := by
          rintro x hx ⟨_, c, hc, hc'⟩
          exact ⟨hx, c, by rw [hkeep x hx, hc], hc'⟩
        refine ⟨_, _, rfl, ?_, ⟨fun x c hx hc => by simp only [hkeep x hx, hc], fun x hx => hx⟩, by simp [setTab],
          fun _ => hrec, fun h => absurd rfl h⟩
        constructor
        · intro x hx
          rcases inv.done x hx with h | h
          · exact .inl h
          · right
            by_cases e : x = g
            · simp [setTab, e]
            · simpa [setTab, e] using h
        · exact inv.sub
        · intro x c hc
          by_cases e : x = g
          · rw [e]; exact hd
          · simp only [setTab, if_neg e] at hc
            exact inv.dom x c hc
        · intro x hx c hc
          by_cases e : x = g
          · subst e
            simp only [setTab, if_pos] at hc
            cases hc
            exact ⟨rfl, hrec⟩
          · simp only [setTab, if_neg e] at hc
            exact inv.open_ x hx c hc
        · intro x c hx hc
          simp only [hkeep x hx] at hc
          exact inv.inf x c hx hc
        · intro x c hx hc
          simp only [hkeep x hx] at hc
          exact inv.acc x c hx hc
        · intro x c hx hc h y hy
          simp only [hkeep x hx] at hc
          have := inv.callees x c hx hc h y hy
          exact hsome y this.1 this
        · intro x c F hx hc h hF
          simp only [hkeep x hx] at hc
          rw [inv.eqn x c F hx hc h hF]
          apply specList_congr
          intro i hi hdi
          have hcall : Calls fd x i.op := by
            obtain ⟨b, hb, hib⟩ := List.mem_flatten.mp hi
            exact ⟨F, hF, ⟨b, hb, i, hib, rfl⟩, hdi⟩
          have := inv.callees x c hx hc h _ hcall
          simp [look, hkeep _ this.1]
      · rw [if_neg hm]
        obtain ⟨F, hF⟩ := Option.isSome_iff_exists.mp hd
        rw [hF]
        dsimp only
        have hgS : g ∉ S := fun h => hm (inv.sub g h)
        have hlt := Graph.left_cons_lt (hU g hd) hm
        have inv1 : Inv fd pushBytes { st with trav := g :: st.trav } (g :: S) := by
          have hne : ∀ x c, st.tab x = some c → x ≠ g := by
            intro x c hc e
            rw [e, ht] at hc; cases hc
          constructor
          · intro x hx
            rcases List.mem_cons.mp hx with rfl | hx
            · exact .inl (by simp)
            · rcases inv.done x hx with h | h
              · exact .inl (by simp [h])
              · exact .inr h
          · intro x hx
            rcases List.mem_cons.mp hx with rfl | hx
            · simp
            · exact List.mem_cons_of_mem _ (inv.sub x hx)
          · exact inv.dom
          · intro x hx c hc
            rcases List.mem_cons.mp hx with rfl | hx
            · rw [ht] at hc; cases hc
            · exact inv.open_ x hx c hc
          · intro x c hx hc; exact inv.inf x c (fun h => hx (by simp [h])) hc
          · intro x c hx hc; exact inv.acc x c (fun h => hx (by simp [h])) hc
          · intro x c hx hc h y hy
            obtain ⟨h1, c', h2, h3⟩ := inv.callees x c (fun h => hx (by simp [h])) hc h y hy
            refine ⟨?_, c', h2, h3⟩
            intro hm
            rcases List.mem_cons.mp hm with e | hm
            · exact hne y c' h2 e
            · exact h1 hm
          · intro x c F' hx hc; exact inv.eqn x c F' (fun h => hx (by simp [h])) hc
        have hS' : ∀ x ∈ g :: S, ReflTransGen (Calls fd) x g := by
          intro x hx
          rcases List.mem_cons.mp hx with rfl | hx
          · exact .refl
          · exact (hS x hx).to_reflTransGen
        have hbody : ∀ b ∈ F.blocks, ∀ i ∈ b, (fd i.op).isSome → Calls fd g i.op :=
          fun b hb i hi hdi => ⟨F, hF, ⟨b, hb, i, hi, rfl⟩, hdi⟩
        obtain ⟨c, st', e, inv', ext, h1, h2⟩ := costBlocks_ok (costFun fd pushBytes fuel) fuel U
          (fun g' st hg' i hs hl => ih g' st (g :: S) hg' i hs hl) hS' F.blocks hbody
          { st with trav := g :: st.trav } (addOuts [] F.args) inv1 (by simp only; omega)
        rw [e]
        dsimp only
        have hgood : ∀ y, Good st'.tab (g :: S) y → Good (setTab st'.tab g c) S y := by
          rintro y ⟨hy, c', h, h'⟩
          have : y ≠ g := fun e => hy (by simp [e])
          exact ⟨fun h => hy (by simp [h]), c', by simp [setTab, this, h], h'⟩
        have hlook : ∀ y, Good st'.tab (g :: S) y → look st'.tab y = look (setTab st'.tab g c) y := by
          rintro y ⟨hy, -⟩
          have : y ≠ g := fun e => hy (by simp [e])
          simp [look, setTab, this]
        have hcalls : ∀ y, Calls fd g y → c.1 ≠ none → Good st'.tab (g :: S) y := by
          rintro y ⟨F', hF', ⟨b, hb, i, hi, rfl⟩, hdy⟩ hc
          rw [hF] at hF'; cases hF'
          exact (h2 hc).2 i (List.mem_flatten.mpr ⟨b, hb, hi⟩) hdy
        refine ⟨c, _, rfl, ?_, ?_, by simp [setTab], h1, fun _ => hgS⟩
        · constructor
          · intro x hx
            by_cases e : x = g
            · exact .inr (by simp [setTab, e])
            · rcases inv'.done x hx with h | h
              · rcases List.mem_cons.mp h with h | h
                · exact absurd h e
                · exact .inl h
              · exact .inr (by simpa [setTab, e] using h)
          · intro x hx
            exact inv'.sub x (by simp [hx])
          · intro x c' hc
            by_cases e : x = g
            · rw [e]; exact hd
            · simp only [setTab, if_neg e] at hc
              exact inv'.dom x c' hc
          · intro x hx c' hc
            have e : x ≠ g := fun e => hgS (e ▸ hx)
            simp only [setTab, if_neg e] at hc
            exact inv'.open_ x (by simp [hx]) c' hc
          · intro x c' hx hc h
            by_cases e : x = g
            · subst e
              simp only [setTab, if_pos] at hc
              cases hc
              exact h1 h
            · simp only [setTab, if_neg e] at hc
              exact inv'.inf x c' (by simp [e, hx]) hc h
          · intro x c' hx hc h
            by_cases e : x = g
            · subst e
              simp only [setTab, if_pos] at hc
              cases hc
              constructor
              intro y hy
              obtain ⟨hy1, c', hy2, hy3⟩ := hcalls y hy h
              exact inv'.acc y c' hy1 hy2 hy3
            · simp only [setTab, if_neg e] at hc
              exact inv'.acc x c' (by simp [e, hx]) hc h
          · intro x c' hx hc h y hy
            by_cases e : x = g
            · subst e
              simp only [setTab, if_pos] at hc
              cases hc
              exact hgood y (hcalls y hy h)
            · simp only [setTab, if_neg e] at hc
              exact hgood y (inv'.callees x c' (by simp [e, hx]) hc h y hy)
          · intro x c' F' hx hc h hF'
            have key : ∀ i ∈ F'.blocks.flatten, (fd i.op).isSome → Calls fd x i.op := by
              intro i hi hdi
              obtain ⟨b, hb, hib⟩ := List.mem_flatten.mp hi
              exact ⟨F', hF', ⟨b, hb, i, hib, rfl⟩, hdi⟩
            by_cases e : x = g
            · subst e
              simp only [setTab, if_pos] at hc
              cases hc
              rw [hF] at hF'; cases hF'
              refine Eq.trans (h2 h).1 ?_
              apply specList_congr
              intro i hi hdi
              exact hlook _ (hcalls _ (key i hi hdi) h)
            · simp only [setTab, if_neg e] at hc
              rw [inv'.eqn x c' F' (by simp [e, hx]) hc h hF']
              apply specList_congr
              intro i hi hdi
              exact hlook _ (inv'.callees x c' (by simp [e, hx]) hc h _ (key i hi hdi))
        · constructor
          · intro x c' hx hc
            have e : x ≠ g := by
              intro e
              rw [e, ht] at hc; cases hc
            simp only [setTab, if_neg e]
            exact ext.keep x c' (by simp [e, hx]) hc
          · intro x hx
            exact ext.trav x (List.mem_cons_of_mem _ hx)

theorem not_recursive_of_acc {f : String} (h : Acc (fun a b => Calls fd b a) f) : ¬Recursive fd f := by
  induction h with
  | intro x _ ih =>
    rintro ⟨g, h1, h2⟩
    rcases ReflTransGen.cases_head h1 with rfl | ⟨y, hy, h⟩
    · obtain ⟨y, hy, h⟩ := TransGen.head'_iff.mp h2
      exact ih y hy ⟨x, h, h2⟩
    · exact ih y hy ⟨g, h, h2⟩

theorem costAll_ok (U : List String) (hU : ∀ x, (fd x).isSome → x ∈ U) (fuel : Nat) (hf : U.length < fuel) :
    ∀ (names : List String), (∀ x ∈ names, (fd x).isSome) → ∀ (tab : String → Option Cost),
      Inv fd pushBytes ⟨tab, []⟩ [] → ∃ tab', costAll fd pushBytes fuel names tab = some tab' ∧
        Inv fd pushBytes ⟨tab', []⟩ [] ∧ (∀ x c, tab x = some c → tab' x = some c) ∧
        ∀ x ∈ names, (tab' x).isSome := by
  intro names
  induction names with
  | nil => intro _ tab inv; exact ⟨tab, rfl, inv, fun _ _ h => h, by simp⟩
  | cons g names ih =>
    intro hn tab inv
    have hl : Graph.left U ([] : List String) < fuel := by
      unfold Graph.left
      exact Nat.lt_of_le_of_lt (List.length_filter_le _ _) hf
    obtain ⟨c, st', e, inv', ext, ht, -, -⟩ := costFun_ok U hU fuel g ⟨tab, []⟩ [] (hn g (by simp)) inv (by simp) hl
    have inv'' : Inv fd pushBytes ⟨st'.tab, []⟩ [] :=
      ⟨by simp, by simp, inv'.dom, by simp, inv'.inf, inv'.acc, inv'.callees, inv'.eqn⟩
    obtain ⟨tab', e', i', k', s'⟩ := ih (fun x hx => hn x (by simp [hx])) st'.tab inv''
    refine ⟨tab', by rw [costAll, e]; exact e', i', fun x c hc => k' x c (ext.keep x c (by simp) hc), ?_⟩
    intro x hx
    rcases List.mem_cons.mp hx with rfl | hx
    · rw [k' _ _ ht]; rfl
    · exact s' x hx

end

/-- C38: for every set of functions, the estimation terminates (with at most one nested call per function) and yields a
table with an entry exactly for the functions, in which
* the gas of a function is infinite exactly when the function can reach a function that calls itself, directly or not;
* every other entry is the sum of the items of the bill of the function, each call counting the entry of the function
  called. -/
theorem estimate_exact (names : List String) (hn : ∀ x, x ∈ names ↔ (fd x).isSome) (fuel : Nat)
    (hf : names.length < fuel) :
    ∃ tab, costAll fd pushBytes fuel names (fun _ => none) = some tab ∧
      (∀ f, (tab f).isSome ↔ f ∈ names) ∧
      (∀ f c, tab f = some c → (c.1 = none ↔ Recursive fd f)) ∧
      (∀ f c F, tab f = some c → c.1 ≠ none → fd f = some F →
        c.1 = some ((funItems fd pushBytes (fun g => (tab g).getD (none, 0)) F).map fun x => x.1.getD 0).sum ∧
        c.2 = ((funItems fd pushBytes (fun g => (tab g).getD (none, 0)) F).map Prod.snd).sum) := by
  obtain ⟨tab, e, inv, -, hs⟩ := costAll_ok (fd := fd) (pushBytes := pushBytes) names (fun x h => (hn x).mpr h) fuel hf names
    (fun x h => (hn x).mp h) (fun _ => none)
    ⟨by simp, by simp, by simp, by simp, by simp, by simp, by simp, by simp⟩
  refine ⟨tab, e, ?_, ?_, ?_⟩
  · intro f
    constructor
    · intro h
      obtain ⟨c, hc⟩ := Option.isSome_iff_exists.mp h
      exact (hn f).mpr (inv.dom f c hc)
    · exact hs f
  · intro f c hc
    constructor
    · exact inv.inf f c (by simp) hc
    · intro h
      by_contra hne
      exact not_recursive_of_acc (inv.acc f c (by simp) hc hne) h
  · intro f c F hc h hF
    have e := inv.eqn f c F (by simp) hc h hF
    rw [e] at h ⊢
    refine specList_items fd pushBytes _ _ _ _ ?_ h
    intro v _
    rw [mem_addOuts]
    have := unused_made F.args [] v
    simp only [List.append_nil] at this
    rw [this]
    simp [Unused]

/-! ## Non-vacuity -/

/-- `f` calls `g` twice, `g` is a leaf; `h` and `k` call each other; `m` calls `h`. -/
def exFuns : List (String × Fun) := [
  ("f", ⟨["a"], [[⟨"g", ["a"], ["b"], 0, 0⟩], [⟨"g", ["b"], ["c"], 0, 0⟩, ⟨"sstore", ["0x00", "c"], [], 100, 1⟩]]⟩),
  ("g", ⟨["x"], [[⟨"add", ["0x05", "x"], ["y"], 3, 1⟩]]⟩),
  ("h", ⟨[], [[⟨"k", [], [], 0, 0⟩]]⟩),
  ("k", ⟨[], [[⟨"h", [], [], 0, 0⟩]]⟩),
  ("m", ⟨[], [[⟨"h", [], [], 0, 0⟩]]⟩)]

example : (costAll (fun x => exFuns.lookup x) (fun _ => 1) 6 ["f", "g", "h", "k", "m"] (fun _ => none)).map
    (fun tab => ["f", "g", "h", "k", "m"].map tab) =
    some [some (some 114, 8), some (some 6, 3), some (none, 1), some (none, 1), some (none, 1)] := by decide +kernel

example : ∀ x, x ∈ ["f", "g", "h", "k", "m"] ↔ (exFuns.lookup x).isSome := by
  intro x
  by_cases h1 : x = "f"
  · subst h1; decide
  by_cases h2 : x = "g"
  · subst h2; decide
  by_cases h3 : x = "h"
  · subst h3; decide
  by_cases h4 : x = "k"
  · subst h4; decide
  by_cases h5 : x = "m"
  · subst h5; decide
  simp [exFuns, List.lookup, beq_eq_false_iff_ne.mpr h1, beq_eq_false_iff_ne.mpr h2, beq_eq_false_iff_ne.mpr h3,
    beq_eq_false_iff_ne.mpr h4, beq_eq_false_iff_ne.mpr h5, h1, h2, h3, h4, h5]

end Grey.Cost
