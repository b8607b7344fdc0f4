/-
C69: documents with subobjects; C70: references to subobjects.
-/
import Verif.Nested.Passes
import Verif.Parser.Builtins
namespace Grey.Nested
open List Grey.Cfg Grey.Inline Grey.Prep Grey.Lower Grey.Program Grey.Parser Grey.Sfs Grey.SymExec Grey.Front Grey.Whole

/-! ### The keys -/

theorem hexChar_number : ∀ d < 16, "0123456789abcdef".toList.idxOf (Opcodes.hexChar d).toLower = d := by decide +kernel

theorem hexNumber_hexDigits (n : Nat) : hexNumber (Opcodes.hexDigits n) = n := by
  induction n using Nat.strongRecOn with
  | _ n ih =>
    unfold Opcodes.hexDigits
    split
    · rename_i h
      show 16 * 0 + _ = n
      rw [hexChar_number n h]
      omega
    · rename_i h
      have := ih (n / 16) (by omega)
      unfold hexNumber at this ⊢
      rw [foldl_append, this, foldl_cons, foldl_nil, hexChar_number _ (by omega)]
      omega

/-- The keys of `.data`, read as numbers, are the numbers of the subobjects. -/
theorem key_number (n : Nat) : hexNumber (Repair.hexOf n).toList = n := by
  unfold Repair.hexOf
  rw [String.toList_ofList]
  exact hexNumber_hexDigits n

theorem find_key (l : List Assembly) (i : Nat) : ∀ k, ((l.zipIdx k).map fun e => (Repair.hexOf e.2, e.1)).find? (fun e => hexNumber e.1.toList == k + i) =
    (l[i]?).map fun a => (Repair.hexOf (k + i), a) := by
  induction l generalizing i with
  | nil => intro k; simp
  | cons a l ih =>
    intro k
    rw [zipIdx_cons, map_cons, find?_cons, key_number]
    cases i with
    | zero => simp
    | succ i =>
      rw [show (k == k + (i + 1)) = false by simp]
      have := ih i (k + 1)
      rw [show k + 1 + i = k + (i + 1) by omega] at this
      simpa using this

/-! ### The output -/

section
variable {D : String → Option TagDict} {fr : JObj → CObj} {P : JObj → List Output.Asm → Prop}

/-- The code at every place is as it should be, and there is none at other places. -/
def Matches (P : JObj → List Output.Asm → Prop) (t : Tree JObj) (a : Assembly) : Prop :=
  ∀ path, (∀ J, (t.at path).map (·.root) = some J → ∃ b, a.at path = some b ∧ P J b.code) ∧ (t.at path = none → a.at path = none)

mutual
theorem asmTree_eq : ∀ (t : Tree JObj) (p : Tree Plan), mapTree (fun p => some p.base) p = some (mapT fr t) →
    (∀ J ∈ t.all, ∀ q ∈ p.all, q.base = fr J → ∃ T code, D (fr J).name = some T ∧ assemble q.prog q.base.fns (tagOf T) q.sched q.fuel = some code ∧ P J code) →
    ∃ a, asmTree D p = some a ∧ Matches P t a
  | .node J ts, .node q ps, hb, h => by
    simp only [mapTree, mapT, Option.bind_some] at hb
    obtain ⟨us, hu, hb⟩ := Option.map_eq_some_iff.1 hb
    simp only [Tree.node.injEq] at hb
    obtain ⟨hq, rfl⟩ := hb
    obtain ⟨T, code, h1, h2, h3⟩ := h J (by simp [Tree.all]) q (by simp [Tree.all]) hq
    obtain ⟨l, h4, h5, h6⟩ := asmTrees_eq ts ps hu fun K hK r hr => h K (by simp [Tree.all, hK]) r (by simp [Tree.all, hr])
    refine ⟨.node code (l.zipIdx.map fun e => (Repair.hexOf e.2, e.1)), ?_, ?_⟩
    · rw [← hq] at h1
      simp [asmTree, h1, h2, h4]
    · intro path
      cases path with
      | nil =>
        refine ⟨fun K hK => ⟨_, rfl, ?_⟩, fun e => by cases e⟩
        simp only [Tree.at, Tree.root, Option.map_some, Option.some.injEq] at hK
        subst hK
        exact h3
      | cons i path =>
        have hf := find_key l i 0
        rw [Nat.zero_add] at hf
        have e1 : Assembly.at (.node code (l.zipIdx.map fun e => (Repair.hexOf e.2, e.1))) (i :: path) = (l[i]?).bind (·.at path) := by
          simp only [Assembly.at, Assembly.data, hf]
          cases l[i]? <;> rfl
        have e2 : (Tree.node J ts).at (i :: path) = (ts[i]?).bind (·.at path) := rfl
        rw [e1, e2]
        cases hi : ts[i]? with
        | none =>
          have : l[i]? = none := by
            rw [getElem?_eq_none_iff] at hi ⊢
            omega
          simp [this]
        | some t =>
          obtain ⟨a, ha, hm⟩ := h6 i t hi
          simp only [ha, Option.bind_some]
          exact hm path
theorem asmTrees_eq : ∀ (ts : List (Tree JObj)) (ps : List (Tree Plan)), mapTrees (fun p => some p.base) ps = some (mapTs fr ts) →
    (∀ J ∈ Tree.alls ts, ∀ q ∈ Tree.alls ps, q.base = fr J →
      ∃ T code, D (fr J).name = some T ∧ assemble q.prog q.base.fns (tagOf T) q.sched q.fuel = some code ∧ P J code) →
    ∃ l, asmTrees D ps = some l ∧ l.length = ts.length ∧ ∀ (i : Nat) t, ts[i]? = some t → ∃ a, l[i]? = some a ∧ Matches P t a
  | [], [], _, _ => ⟨[], by simp [asmTrees], rfl, by simp⟩
  | [], p :: ps, hb, _ => by
    simp only [mapTrees, mapTs] at hb
    obtain ⟨_, _, hb⟩ := Option.bind_eq_some_iff.1 hb
    obtain ⟨_, _, hb⟩ := Option.map_eq_some_iff.1 hb
    cases hb
  | t :: ts, [], hb, _ => by
    simp only [mapTrees, mapTs] at hb
    cases hb
  | t :: ts, p :: ps, hb, h => by
    simp only [mapTrees, mapTs] at hb
    obtain ⟨u, hu, hb⟩ := Option.bind_eq_some_iff.1 hb
    obtain ⟨us, hus, hb⟩ := Option.map_eq_some_iff.1 hb
    simp only [cons.injEq] at hb
    obtain ⟨rfl, rfl⟩ := hb
    obtain ⟨a, h1, h2⟩ := asmTree_eq t p hu fun K hK r hr => h K (by simp [Tree.alls, hK]) r (by simp [Tree.alls, hr])
    obtain ⟨l, h3, h4, h5⟩ := asmTrees_eq ts ps hus fun K hK r hr => h K (by simp [Tree.alls, hK]) r (by simp [Tree.alls, hr])
    refine ⟨a :: l, by simp [asmTrees, h1, h3], by simp [h4], ?_⟩
    intro i s hs
    cases i with
    | zero =>
      simp only [getElem?_cons_zero, Option.some.injEq] at hs
      subst hs
      exact ⟨a, rfl, h2⟩
    | succ i =>
      rw [getElem?_cons_succ] at hs ⊢
      exact h5 i s hs
end

end

/-! ### C69 -/

/-- What becomes of one object. -/
structure Done {C : Type} (topo : CallInfo → List String) (dec : String → String × Option (List String)) (I : Interp Nat (Loc → C))
    (arity : String → Nat) (main : String) (J : JObj) (O : Obj) (names' : List String) (O' : Obj) (T : TagDict) : Prop where
  parse : parseObject J = some O
  front : frontEnd (J.functions.map (·.1)) (topo (callSites (J.functions.map (·.1)) (renameObj (J.functions.map (·.1)) O))) O = some (names', O', T)
  code : ∀ (A : Option String → Analysis) (sched : String → String → List String) (fuel : Nat), Checked (toProg names' dec main A O') I sched →
    (∀ f F, (toProg names' dec main A O').fns f = some F → F.graph.blocks.length ≤ fuel) →
    ∃ code, assemble (toProg names' dec main A O') names' (tagOf T) sched fuel = some code ∧ AssemblyOf I dec arity code J

theorem done_of_fit {C : Type} [Nonempty C] {topo : CallInfo → List String} {dec : String → String × Option (List String)} {I : Interp Nat (Loc → C)}
    {arity : String → Nat} {main : String} {J : JObj} (K : Fit topo dec I arity main J) : ∃ O names' O' T, Done topo dec I arity main J O names' O' T := by
  obtain ⟨val, hval⟩ := K.tags
  obtain ⟨O, hO, -⟩ := parsed_runs_partial K.doc K.results
  obtain ⟨O2, hO2, h⟩ := document_to_assembly_partial (order := topo (callSites (J.functions.map (·.1)) (renameObj (J.functions.map (·.1)) O)))
    (dec := dec) (I := I) (arity := arity) (val := val) (main := main) K.doc K.results
  obtain rfl : O = O2 := Option.some.inj (hO.symm.trans hO2)
  obtain ⟨names', O', T, h1, h2⟩ := h (K.compilable O hO) (K.order O hO) (K.ending O hO) (K.ops O hO) K.main (K.emittable O hO) hval K.nums
  exact ⟨O, names', O', T, hO, h1, h2⟩

/-- The object that results from `J` if it is handled without other objects. -/
def AloneIs (topo : CallInfo → List String) (J : JObj) (u : CObj) : Prop :=
  ∃ O T, parseObject J = some O ∧
    frontEnd (J.functions.map (·.1)) (topo (callSites (J.functions.map (·.1)) (renameObj (J.functions.map (·.1)) O))) O = some (u.fns, u.obj, T)

theorem documents_done {C : Type} {topo : CallInfo → List String} {t : Tree JObj} {rest : List (Tree JObj)}
    {dec : JObj → String → String × Option (List String)} {I : JObj → Interp Nat (Loc → C)} {arity : JObj → String → Nat} {main : JObj → String}
    {O : JObj → Obj} {names' : JObj → List String} {O' : JObj → Obj} {T : JObj → TagDict}
    (hn : ((Tree.alls (t :: rest)).map (·.name)).Nodup)
    (hq : ∀ J ∈ Tree.alls (t :: rest), Done topo (dec J) (I J) (arity J) (main J) J (O J) (names' J) (O' J) (T J)) :
    ∃ cs fs tags, parseDocs (t :: rest) = some cs ∧ frontDocs topo cs = some (fs, tags) ∧
      (∀ J ∈ Tree.alls (t :: rest), ∀ u ∈ Tree.alls fs, u.name = J.name → AloneIs topo J u) ∧
      ∀ plans, PlansFor plans fs →
        (∀ J ∈ Tree.alls (t :: rest), ∀ p ∈ Tree.alls plans, p.base.name = J.name → PlanOk (dec J) (I J) (main J) p) →
        ∃ a, asmDocs tags plans = some a ∧ Matches (fun J code => AssemblyOf (I J) (dec J) (arity J) code J) t a := by
  have e1 : parseDocs (t :: rest) = some (mapTs (fun J => ⟨J.name, J.functions.map (·.1), O J⟩) (t :: rest)) := by
    refine mapTrees_some _ _ _ fun J hJ => ?_
    unfold parseOne
    rw [(hq J hJ).parse]
    rfl
  obtain ⟨tags, e2, e3⟩ := frontDocs_eq (topo := topo) (ts := t :: rest) (g := fun J => ⟨J.name, J.functions.map (·.1), O J⟩)
    (by simpa [namesOf, Function.comp_def] using hn) (names' := names') (O' := O') (T := T)
    (by
      intro J hJ
      dsimp only
      exact (hq J hJ).front)
  refine ⟨_, _, tags, e1, e2, ?_, ?_⟩
  · intro J hJ u hu e
    rw [mapTs_alls] at hu
    obtain ⟨K, hK, rfl⟩ := mem_map.1 hu
    obtain rfl : K = J := inj_on_of_nodup_map hn hK hJ e
    exact ⟨O K, T K, (hq K hK).parse, (hq K hK).front⟩
  intro plans hplans hok
  obtain ⟨l, a1, a2, a3⟩ := asmTrees_eq (D := tags) (fr := fun J => (⟨J.name, names' J, O' J⟩ : CObj))
    (P := fun J code => AssemblyOf (I J) (dec J) (arity J) code J) (t :: rest) plans hplans (by
      intro J hJ p hp hb
      have hk := hok J hJ p hp (by rw [hb])
      have hprog : p.prog = toProg (names' J) (dec J) (main J) p.ana (O' J) := by
        unfold Plan.prog
        rw [hb, hk.dec, hk.main]
      have hc := hk.checked
      have hf := hk.fuel
      rw [hprog] at hc hf
      obtain ⟨code, c1, c2⟩ := (hq J hJ).code p.ana p.sched p.fuel hc hf
      refine ⟨T J, code, e3 J hJ, ?_, c2⟩
      rw [hprog, hb]
      exact c1)
  obtain ⟨a, b1, b2⟩ := a3 0 t rfl
  refine ⟨a, ?_, b2⟩
  unfold asmDocs
  rw [a1, Option.bind_some, head?_eq_getElem?, b1]

/-- **C69.** From a document with subobjects to the assembly. The outermost level has the object `t` (and possibly others, which are not written); all
objects, at every depth, have distinct names and meet the hypotheses of C67. Then the document is parsed, and the front end succeeds, with the same
result for every object as if it was alone. If in addition
nothing is wrong with the analyses, layouts and schedules of the objects that result, the assembly is written; at every place where the document has an
object, the assembly has code, and this code does what the document says for the object at this place; there is no other code.

The meaning of the operations may differ from object to object (references to other objects mean different things in them).

Partial: as in C67, `Checked` is assumed, and results of functions without an underscore in their name are excluded; and the names are assumed to be
distinct, see `same_name_breaks_tags`. -/
theorem documents_to_assembly_partial {C : Type} [Nonempty C] {topo : CallInfo → List String} {t : Tree JObj} {rest : List (Tree JObj)}
    {dec : JObj → String → String × Option (List String)} {I : JObj → Interp Nat (Loc → C)} {arity : JObj → String → Nat} {main : JObj → String}
    (hn : ((Tree.alls (t :: rest)).map (·.name)).Nodup) (hfit : ∀ J ∈ Tree.alls (t :: rest), Fit topo (dec J) (I J) (arity J) (main J) J) :
    ∃ cs fs tags, parseDocs (t :: rest) = some cs ∧ frontDocs topo cs = some (fs, tags) ∧
      (∀ J ∈ Tree.alls (t :: rest), ∀ u ∈ Tree.alls fs, u.name = J.name → AloneIs topo J u) ∧
      ∀ plans, PlansFor plans fs →
        (∀ J ∈ Tree.alls (t :: rest), ∀ p ∈ Tree.alls plans, p.base.name = J.name → PlanOk (dec J) (I J) (main J) p) →
        ∃ a, asmDocs tags plans = some a ∧ ∀ path,
          (∀ J, (t.at path).map (·.root) = some J → ∃ b, a.at path = some b ∧ AssemblyOf (I J) (dec J) (arity J) b.code J) ∧
          (t.at path = none → a.at path = none) := by
  classical
  have hp : ∀ J : JObj, ∃ (O : Obj) (names' : List String) (O' : Obj) (T : TagDict), J ∈ Tree.alls (t :: rest) →
      Done topo (dec J) (I J) (arity J) (main J) J O names' O' T := by
    intro J
    by_cases hJ : J ∈ Tree.alls (t :: rest)
    · obtain ⟨O, names', O', T, h⟩ := done_of_fit (hfit J hJ)
      exact ⟨O, names', O', T, fun _ => h⟩
    · exact ⟨⟨⟨[], none, [], []⟩, fun _ => none⟩, [], ⟨⟨[], none, [], []⟩, fun _ => none⟩, [], fun h => absurd h hJ⟩
  choose O names' O' T hq using hp
  exact documents_done hn hq

/-! ### C70 -/

/-- The text of a number in an item: `"{0:064X}".format(n)` (src/parser/cfg_instruction.py:304, 331). -/
def hex64 (n : Nat) : String :=
  String.ofList (replicate (64 - (Opcodes.hexDigits n).length) '0' ++ (Opcodes.hexDigits n).map Char.toUpper)

theorem hexNumber_zeros (k : Nat) (l : List Char) : hexNumber (replicate k '0' ++ l) = hexNumber l := by
  unfold hexNumber
  rw [foldl_append]
  congr 1
  induction k with
  | zero => rfl
  | succ k ih =>
    rw [replicate_succ, foldl_cons]
    exact ih

theorem hexChar_upper : ∀ d < 16, (Opcodes.hexChar d).toUpper.toLower = (Opcodes.hexChar d).toLower := by decide +kernel

theorem hexDigits_char (n : Nat) : ∀ c ∈ Opcodes.hexDigits n, c.toUpper.toLower = c.toLower := by
  induction n using Nat.strongRecOn with
  | _ n ih =>
    unfold Opcodes.hexDigits
    split
    · rename_i h
      intro c hc
      rw [mem_singleton.1 hc]
      exact hexChar_upper n h
    · rename_i h
      intro c hc
      rcases mem_append.1 hc with hc | hc
      · exact ih (n / 16) (by omega) c hc
      · rw [mem_singleton.1 hc]
        exact hexChar_upper _ (by omega)

/-- The text of a number denotes the number. -/
theorem hex64_number (n : Nat) : hexNumber (hex64 n).toList = n := by
  unfold hex64
  rw [String.toList_ofList, hexNumber_zeros]
  have h := hexNumber_hexDigits n
  unfold hexNumber at h ⊢
  rw [foldl_map]
  refine Eq.trans ?_ h
  have : ∀ (l : List Char) (m : Nat), (∀ c ∈ l, c.toUpper.toLower = c.toLower) →
      l.foldl (fun n c => 16 * n + "0123456789abcdef".toList.idxOf c.toUpper.toLower) m =
        l.foldl (fun n c => 16 * n + "0123456789abcdef".toList.idxOf c.toLower) m := by
    intro l
    induction l with
    | nil => intro m _; rfl
    | cons c l ih =>
      intro m hc
      rw [foldl_cons, foldl_cons, hc c mem_cons_self]
      exact ih _ fun x hx => hc x (mem_cons_of_mem _ hx)
  exact this _ 0 (hexDigits_char n)

theorem subKeys_lookup (ts : List (Tree JObj)) (hn : (ts.map fun t => t.root.name).Nodup) (i : Nat) (t : Tree JObj) (ht : ts[i]? = some t) :
    (subKeys ts).lookup t.root.name = some i := by
  have : ∀ (ts : List (Tree JObj)) (k i : Nat), (ts.map fun t => t.root.name).Nodup → ts[i]? = some t →
      ((ts.zipIdx k).map fun p => (p.1.root.name, p.2)).lookup t.root.name = some (k + i) := by
    intro ts
    induction ts with
    | nil => intro k i _ h; simp at h
    | cons s ts ih =>
      intro k i hn h
      rw [map_cons, nodup_cons] at hn
      rw [zipIdx_cons, map_cons, lookup_cons]
      cases i with
      | zero =>
        simp only [getElem?_cons_zero, Option.some.injEq] at h
        subst h
        simp
      | succ i =>
        rw [getElem?_cons_succ] at h
        have hne : (t.root.name == s.root.name) = false := by
          rw [beq_eq_false_iff_ne]
          intro e
          exact hn.1 (mem_map.2 ⟨t, mem_of_getElem? h, e⟩)
        simp only [hne]
        rw [ih (k + 1) i hn.2 h]
        congr 1
        omega
  simpa [subKeys] using this ts 0 i hn ht

/-- **C70.** References to subobjects. In the code of an object, `dataoffset` and `datasize` of the name of one of its subobjects (the names of one level are
distinct, they are the keys of a dictionary) become items whose value, read as a hexadecimal number, is the number `i` of the subobject, whatever
references came before. If the assembly of the object is written, the entry of `.data` under this number is the assembly of this subobject. -/
theorem reference_finds_subobject {ts : List (Tree JObj)} (hn : (ts.map fun t => t.root.name).Nodup) {i : Nat} {t : Tree JObj} (ht : ts[i]? = some t)
    (obj : String) (r : Refs) :
    (translate (subKeys ts) obj "dataoffset" (some [t.root.name]) r = some (⟨"push [$]", [.num i]⟩, r)) ∧
    (obj ≠ t.root.name → translate (subKeys ts) obj "datasize" (some [t.root.name]) r = some (⟨"push #[$]", [.num i]⟩, r)) ∧
    hexNumber (hex64 i).toList = i ∧
    ∀ (D : String → Option TagDict) (p : Plan) (ps : List (Tree Plan)) (a : Assembly), asmTree D (.node p ps) = some a →
      (a.data.map (·.1)).Nodup ∧ ∀ (u : Tree Plan), ps[i]? = some u → ∃ b, asmTree D u = some b ∧ a.at [i] = some b := by
  have hl := subKeys_lookup ts hn i t ht
  refine ⟨?_, ?_, hex64_number i, ?_⟩
  · simp [translate, transOffset, refNumber, hl]
  · intro hne
    simp [translate, transSize, refNumber, hl, Ne.symm hne]
  · intro D p ps a ha
    simp only [asmTree] at ha
    obtain ⟨T, -, ha⟩ := Option.bind_eq_some_iff.1 ha
    obtain ⟨code, -, ha⟩ := Option.bind_eq_some_iff.1 ha
    obtain ⟨l, hl, rfl⟩ := Option.map_eq_some_iff.1 ha
    refine ⟨?_, ?_⟩
    · simp only [Assembly.data, map_map]
      have : (l.zipIdx.map ((fun x : String × Assembly => x.1) ∘ fun e => (Repair.hexOf e.2, e.1))) = (range l.length).map Repair.hexOf := by
        apply List.ext_getElem?
        intro j
        simp only [getElem?_map, getElem?_zipIdx, Option.map_map]
        by_cases hj : j < l.length
        · rw [getElem?_eq_getElem hj, getElem?_range hj]
          simp
        · rw [getElem?_eq_none (by omega), getElem?_eq_none (by simpa using hj)]
          rfl
      rw [this]
      refine nodup_range.map fun x y h => ?_
      have := congrArg (fun s => hexNumber s.toList) h
      simpa [key_number] using this
    · have hat : ∀ (ps : List (Tree Plan)) (l : List Assembly), asmTrees D ps = some l → ∀ (j : Nat) u, ps[j]? = some u → ∃ b, asmTree D u = some b ∧ l[j]? = some b := by
        intro ps
        induction ps with
        | nil => intro l _ j u hu; simp at hu
        | cons q ps ih =>
          intro l hl j u hu
          simp only [asmTrees] at hl
          obtain ⟨b, hb, hl⟩ := Option.bind_eq_some_iff.1 hl
          obtain ⟨l', hl', rfl⟩ := Option.map_eq_some_iff.1 hl
          cases j with
          | zero =>
            simp only [getElem?_cons_zero, Option.some.injEq] at hu
            subst hu
            exact ⟨b, hb, rfl⟩
          | succ j =>
            rw [getElem?_cons_succ] at hu ⊢
            exact ih l' hl' j u hu
      intro u hu
      obtain ⟨b, hb, hlb⟩ := hat ps l hl i u hu
      refine ⟨b, hb, ?_⟩
      have hf := find_key l i 0
      rw [Nat.zero_add] at hf
      simp only [Assembly.at, Assembly.data, hf, hlb, Option.map_some, Option.bind_some]

end Grey.Nested
