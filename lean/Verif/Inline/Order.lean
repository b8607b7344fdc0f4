/-
The order in which functions are inlined (src/cfg_methods/function_inlining.py:226-250): C57.

`nx.condensation` and `nx.topological_sort` are taken from networkx, and what is known about them is their documentation: the components
of the condensation are visited so that an edge leads from a component to a later one, and the members of a component, which are a set,
in any order. `TopologicalOrder` is a consequence of that; that such an order always exists is proved.
-/
import Verif.Inline.PassProof
import Verif.Inline.Check
import Mathlib.Logic.Relation
namespace Grey.Inline
open List Grey.Cfg

/-! ### Model -/

/-- src/cfg_methods/function_inlining.py:232-234: the edges of `function_deps`. The keys of the dictionary are `keys`, and `u` has an edge
to `v` if a call of `u` is in the function `v`. -/
def Edge (sites : String → List (Nat × String × Option String)) (keys : List String) (u v : String) : Prop :=
  u ∈ keys ∧ v ∈ keys ∧ ∃ q ∈ sites u, q.2.2 = some v

/-- src/cfg_methods/function_inlining.py:235-246 and the keys of the dictionary, 45-65: each called function is listed once, and an edge
leads to a later function, or else the two functions are in the same strongly connected component. (Simplified: the members of a
component need not be next to each other, which allows more orders.) -/
structure TopologicalOrder (names : List String) (sites : String → List (Nat × String × Option String)) (order : List String) : Prop where
  nodup : order.Nodup
  keys : ∀ f, f ∈ order ↔ f ∈ names ∧ sites f ≠ []
  sorted : order.Pairwise fun g f => Edge sites order f g → Relation.ReflTransGen (Edge sites order) g f

/-! ### Specification -/

/-- Running `f` can lead to a call of `g`: `f` is `g`, or it contains a call of a function that leads to `g`. -/
def LeadsTo (O : Obj) : String → String → Prop := Relation.ReflTransGen fun f g => ∃ x j, Calls O g (some f) x j

/-- No function leads back to itself. -/
def NotRecursive (O : Obj) : Prop := ∀ f g x j, Calls O g (some f) x j → ¬ LeadsTo O g f

/-- No function that is called once contains a call, to which it leads back, of a function that is called once. -/
def NoSingleCycle (O : Obj) : Prop := ∀ f g x j, CalledOnce O f → CalledOnce O g → Calls O g (some f) x j → ¬ LeadsTo O g f

theorem NotRecursive.single {O : Obj} (h : NotRecursive O) : NoSingleCycle O := fun f g x j _ _ => h f g x j

/-! ### Proofs -/

section
variable {O : Obj} {names order : List String} (ok : ObjOk O) (hn : ∀ f, f ∈ names ↔ ∃ F, O.fns f = some F)
include ok hn

theorem call_of_site {f : String} {q : Nat × String × Option String} (hq : q ∈ callSites names O f) : ∃ j, Calls O f q.2.2 q.2.1 j := by
  obtain ⟨C, hC, X, hX, e, i, hi, ho⟩ := (mem_callSites fun f F hF => (hn f).2 ⟨F, hF⟩).1 hq
  obtain ⟨Y, hY⟩ := get_isSome_iff.2 (mem_map_of_mem (f := (·.id)) hX)
  rw [inj_on_of_nodup_map (ok.comps _ C hC).sane.coherent.ids (get_mem hY) hX (get_id hY), e] at hY
  exact ⟨_, C, X, i, hC, hY, (code_position ((ok.comps _ C hC).phisFirst _ X hY)).1 hi, ho⟩

theorem site_of_call {f : String} {F : Component} {c : Option String} {x : String} {j : Nat} (hF : O.fns f = some F) (h : Calls O f c x j) :
    ∃ p, (p, x, c) ∈ callSites names O f := by
  obtain ⟨C, X, i, hC, hX, hj, ho⟩ := h
  have hp : isPhi i = false := by
    unfold isPhi
    rw [beq_eq_false_iff_ne, ho]
    rintro rfl
    rw [ok.noPhi] at hF; cases hF
  have hfst := (ok.comps c C hC).phisFirst x X hX
  have hle := phi_position hfst hj hp
  refine ⟨j - (phis X).length, (mem_callSites fun f F hF => (hn f).2 ⟨F, hF⟩).2 ⟨C, hC, X, get_mem hX, get_id hX, i, ?_, ho⟩⟩
  rw [code_position hfst]
  simp only [Nat.sub_add_cancel hle]
  exact hj

theorem leads_of_path {g f : String} (h : Relation.ReflTransGen (Edge (callSites names O) order) g f) : LeadsTo O f g := by
  induction h with
  | refl => exact .refl
  | tail _ e ih =>
    obtain ⟨_, _, q, hq, e⟩ := e
    obtain ⟨j, hj⟩ := call_of_site ok hn hq
    rw [e] at hj
    exact .head ⟨_, _, hj⟩ ih

/-- The order that the code computes has callees before callers, except in cycles of calls. -/
theorem topological_callees_first (ho : TopologicalOrder names (callSites names O) order) (hc : NoSingleCycle O) : CalleesFirst O order := by
  have hfn : ∀ f ∈ order, ∃ F, O.fns f = some F := fun f hf => (hn f).1 ((ho.keys f).1 hf).1
  refine ⟨ho.nodup, hfn, ?_, ?_, ?_⟩
  · intro f F c x j hF hj
    obtain ⟨p, hp⟩ := site_of_call ok hn hF hj
    exact (ho.keys f).2 ⟨(hn f).2 ⟨F, hF⟩, fun e => by rw [e] at hp; cases hp⟩
  · refine ho.sorted.imp_of_mem ?_
    intro g f hg hf hs h1 h2 x j hj
    obtain ⟨F, hF⟩ := hfn f hf
    obtain ⟨p, hp⟩ := site_of_call ok hn hF hj
    exact hc g f x j h2 h1 hj (leads_of_path ok hn (hs ⟨hf, hg, _, hp, rfl⟩))
  · intro f hf x j hj
    exact hc f f x j hf hf hj .refl

/-- The pass with the order that the code computes. -/
theorem inlining_pass_ordered (hnd : names.Nodup) (ho : TopologicalOrder names (callSites names O) order) (hc : NoSingleCycle O) :
    ∃ O', inlinePass names order O = some O' ∧ SameRuns O O' ∧ ObjOk O' ∧ ∀ f ∈ names, (O'.fns f = none ↔ CalledOnce O f) :=
  inlining_pass_preserves ok hnd hn (topological_callees_first ok hn ho hc)

end

/-! ### Such an order exists -/

/-- A list that is not empty has a minimal element. -/
theorem exists_minimal {α : Type} {R : α → α → Prop} (ht : ∀ {a b c}, R a b → R b c → R a c) (a : α) (l : List α) :
    ∃ m ∈ a :: l, ∀ x ∈ a :: l, R x m → R m x := by
  induction l generalizing a with
  | nil =>
    refine ⟨a, mem_cons_self, ?_⟩
    intro x hx h
    rw [mem_singleton] at hx
    subst hx
    exact h
  | cons b l ih =>
    obtain ⟨m, hm, hmin⟩ := ih b
    by_cases h : R a m ∧ ¬ R m a
    · refine ⟨a, mem_cons_self, ?_⟩
      intro x hx hxa
      rcases mem_cons.1 hx with rfl | hx
      · exact hxa
      · exact ht h.1 (hmin x hx (ht hxa h.1))
    · refine ⟨m, mem_cons_of_mem _ hm, ?_⟩
      intro x hx hxm
      rcases mem_cons.1 hx with rfl | hx
      · exact Classical.byContradiction fun h' => h ⟨hxm, h'⟩
      · exact hmin x hx hxm

theorem exists_sorted {α : Type} [DecidableEq α] {R : α → α → Prop} (ht : ∀ {a b c}, R a b → R b c → R a c) (n : Nat) (l : List α)
    (hl : l.length = n) : ∃ l' : List α, l'.Perm l ∧ l'.Pairwise fun g f => R f g → R g f := by
  induction n generalizing l with
  | zero => exact ⟨[], by rw [length_eq_zero_iff.1 hl], .nil⟩
  | succ n ih =>
    obtain ⟨a, t, rfl⟩ := exists_cons_of_length_eq_add_one hl
    obtain ⟨m, hm, hmin⟩ := exists_minimal (R := R) (fun h1 h2 => ht h1 h2) a t
    obtain ⟨l', hp, hs⟩ := ih ((a :: t).erase m) (by rw [length_erase_of_mem hm, hl]; rfl)
    refine ⟨m :: l', (Perm.cons m hp).trans (perm_cons_erase hm).symm, pairwise_cons.2 ⟨?_, hs⟩⟩
    intro x hx h
    exact hmin x (mem_of_mem_erase (hp.mem_iff.1 hx)) h

/-- There always is an order as the code computes it, also when functions call each other in cycles. -/
theorem topological_order_exists {names : List String} (hn : names.Nodup) (sites : String → List (Nat × String × Option String)) :
    ∃ order, TopologicalOrder names sites order := by
  have key : ∀ keys : List String, ∃ l' : List String, l'.Perm keys ∧ l'.Pairwise fun g f =>
      Relation.ReflTransGen (Edge sites keys) f g → Relation.ReflTransGen (Edge sites keys) g f :=
    fun keys => exists_sorted (fun h1 h2 => h1.trans h2) _ _ rfl
  obtain ⟨l, hp, hs⟩ := key (names.filter fun f => !(sites f).isEmpty)
  have he : ∀ {u v}, Edge sites l u v ↔ Edge sites (names.filter fun f => !(sites f).isEmpty) u v := by
    intro u v; unfold Edge; rw [hp.mem_iff, hp.mem_iff]
  have hee : Edge sites l = Edge sites (names.filter fun f => !(sites f).isEmpty) := by
    funext u v; exact propext he
  refine ⟨l, hp.nodup_iff.2 (hn.filter _), ?_, ?_⟩
  · intro f
    rw [hp.mem_iff, mem_filter]
    simp
  · rw [hee]
    exact hs.imp fun h e => h (.single e)

/-! ### Checks for examples -/

theorem notRecursive_of_rank {O : Obj} (rank : String → Nat)
    (h : ∀ f g F x j, O.fns g = some F → Calls O g (some f) x j → rank g < rank f) : NotRecursive O := by
  have down : ∀ f g, LeadsTo O f g → (∃ F, O.fns g = some F) → rank g ≤ rank f := by
    intro f g hl
    induction hl with
    | refl => intro _; exact Nat.le_refl _
    | tail _ e ih =>
      rintro ⟨F, hF⟩
      obtain ⟨x, j, hj⟩ := e
      have h1 := h _ _ F x j hF hj
      obtain ⟨C, _, _, hC, _⟩ := hj
      have h2 := ih ⟨C, hC⟩
      omega
  intro f g x j hj hl
  have hf : ∃ F, O.fns f = some F := by obtain ⟨C, _, _, hC, _⟩ := hj; exact ⟨C, hC⟩
  have hd := down g f hl hf
  have hg : ∃ F, O.fns g = some F := by
    rcases Relation.ReflTransGen.cases_head hl with e | ⟨y, ⟨x', j', C, _, _, hC, _⟩, _⟩
    · rw [e]; exact hf
    · exact ⟨C, hC⟩
  obtain ⟨F, hF⟩ := hg
  have := h f g F x j hF hj
  omega

/-- A decision procedure for `NotRecursive` with functions listed callees first. -/
def acyclicB (main : BlockList) (fns : List (String × Component)) (order : List String) : Bool :=
  decide (fns.map Prod.fst).Nodup &&
    (compsOf main fns).all fun p => p.1.all fun g => (callsB main fns g).all fun q => q.1.all fun f => decide (order.idxOf g < order.idxOf f)

theorem notRecursive_of_check {main : BlockList} {fns : List (String × Component)} {order : List String}
    (ok : ∀ c C, (Obj.ofList main fns).comp c = some C → CompOk C) (h : acyclicB main fns order = true) : NotRecursive (Obj.ofList main fns) := by
  unfold acyclicB at h
  simp only [Bool.and_eq_true, all_eq_true, decide_eq_true_eq, Option.all_eq_true] at h
  refine notRecursive_of_rank (fun f => order.idxOf f) ?_
  intro f g F x j hF hj
  exact h.2 _ (mem_compsOf (c := some g) (C := F) hF) g rfl _ ((mem_callsB h.1 ok).2 hj) f rfl

/-- A decision procedure for `TopologicalOrder`, for programs without recursion. -/
def topologicalB (names : List String) (sites : String → List (Nat × String × Option String)) (order : List String) : Bool :=
  decide order.Nodup && (order.all fun f => decide (f ∈ names) && !(sites f).isEmpty) &&
    (names.all fun f => (sites f).isEmpty || decide (f ∈ order)) &&
    decide (order.Pairwise fun g f => (sites f).all (fun q => q.2.2 != some g) = true)

theorem topological_of_check {names order : List String} {sites : String → List (Nat × String × Option String)}
    (h : topologicalB names sites order = true) : TopologicalOrder names sites order := by
  unfold topologicalB at h
  simp only [Bool.and_eq_true, all_eq_true, decide_eq_true_eq, Bool.or_eq_true, Bool.not_eq_true'] at h
  obtain ⟨⟨⟨h1, h2⟩, h3⟩, h4⟩ := h
  refine ⟨h1, ?_, ?_⟩
  · intro f
    constructor
    · intro hf
      obtain ⟨h5, h6⟩ := h2 f hf
      exact ⟨h5, fun e => by rw [e] at h6; cases h6⟩
    · rintro ⟨hf, hs⟩
      rcases h3 f hf with e | e
      · exact absurd (List.isEmpty_iff.1 e) hs
      · exact e
  · refine h4.imp ?_
    rintro g f hh ⟨_, _, q, hq, e⟩
    have := hh q hq
    rw [e] at this
    simp at this

end Grey.Inline
