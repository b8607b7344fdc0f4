/-
Helper lemmas for the liveness analysis: what the extracted sets contain, and the invariants of the worklist.
-/
import Verif.Liveness.Spec
import Mathlib.Data.List.Basic
import Mathlib.Data.List.Induction
namespace Grey.Liveness

theorem isPhi_iff (i : Instr) : i.isPhi = true ↔ i.op = "PhiFunction" := by simp [Instr.isPhi]

/-! ### Extracted sets -/

theorem ssaSets_append (l : List Instr) (i : Instr) : ssaSets (l ++ [i]) = setsStep (ssaSets l) i := by
  simp [ssaSets]

theorem ssaSets_spec (l : List Instr) :
    (∀ x, x ∈ (ssaSets l).defs ↔ ∃ i ∈ l, i.op ≠ "PhiFunction" ∧ x ∈ i.outs) ∧
    (∀ x, x ∈ (ssaSets l).phiDefs ↔ ∃ i ∈ l, i.op = "PhiFunction" ∧ x ∈ i.outs) ∧
    (∀ x, x ∈ (ssaSets l).upward ↔ ∃ pre i post, l = pre ++ i :: post ∧ i.op ≠ "PhiFunction" ∧ x ∈ i.ins ∧
      isLit x = false ∧ ∀ j ∈ pre, x ∉ j.outs) := by
  induction l using List.reverseRecOn with
  | nil => simp [ssaSets]
  | append_singleton l a ih =>
    obtain ⟨h1, h2, h3⟩ := ih
    rw [ssaSets_append, setsStep]
    by_cases ha : a.isPhi = true
    · rw [if_pos ha]
      have ha' := (isPhi_iff a).1 ha
      refine ⟨?_, ?_, ?_⟩
      · intro x; simp only [h1, List.mem_append, List.mem_singleton]
        constructor
        · rintro ⟨i, hi, h⟩; exact ⟨i, Or.inl hi, h⟩
        · rintro ⟨i, hi | rfl, h, h'⟩
          · exact ⟨i, hi, h, h'⟩
          · exact absurd ha' h
      · intro x; simp only [List.mem_append, h2, List.mem_singleton]
        constructor
        · rintro (⟨i, hi, h⟩ | h)
          · exact ⟨i, Or.inl hi, h⟩
          · exact ⟨a, Or.inr rfl, ha', h⟩
        · rintro ⟨i, hi | rfl, h, h'⟩
          · exact Or.inl ⟨i, hi, h, h'⟩
          · exact Or.inr h'
      · intro x; rw [h3]
        constructor
        · rintro ⟨pre, i, post, rfl, h⟩; exact ⟨pre, i, post ++ [a], by simp, h⟩
        · rintro ⟨pre, i, post, e, h, h'⟩
          rcases List.eq_nil_or_concat post with rfl | ⟨post', b, rfl⟩
          · have := (List.append_inj' e rfl).2
            simp only [List.cons.injEq, and_true] at this
            subst this
            exact absurd ha' h
          · have e' : l ++ [a] = (pre ++ i :: post') ++ [b] := by rw [e]; simp
            exact ⟨pre, i, post', (List.append_inj' e' rfl).1, h, h'⟩
    · rw [if_neg ha]
      have ha' : a.op ≠ "PhiFunction" := fun h => ha ((isPhi_iff a).2 h)
      refine ⟨?_, ?_, ?_⟩
      · intro x; simp only [List.mem_append, h1, List.mem_singleton]
        constructor
        · rintro (⟨i, hi, h⟩ | h)
          · exact ⟨i, Or.inl hi, h⟩
          · exact ⟨a, Or.inr rfl, ha', h⟩
        · rintro ⟨i, hi | rfl, h, h'⟩
          · exact Or.inl ⟨i, hi, h, h'⟩
          · exact Or.inr h'
      · intro x; simp only [h2, List.mem_append, List.mem_singleton]
        constructor
        · rintro ⟨i, hi, h⟩; exact ⟨i, Or.inl hi, h⟩
        · rintro ⟨i, hi | rfl, h, h'⟩
          · exact ⟨i, hi, h, h'⟩
          · exact absurd h ha'
      · intro x
        have hout : x ∉ (ssaSets l).defs ++ (ssaSets l).phiDefs ↔ ∀ j ∈ l, x ∉ j.outs := by
          rw [List.mem_append, h1, h2]
          constructor
          · intro h j hj hx
            by_cases hop : j.op = "PhiFunction"
            · exact h (Or.inr ⟨j, hj, hop, hx⟩)
            · exact h (Or.inl ⟨j, hj, hop, hx⟩)
          · rintro h (⟨j, hj, _, hx⟩ | ⟨j, hj, _, hx⟩) <;> exact h j hj hx
        have hfil : (x ∈ a.ins.filter fun x => !isLit x && decide (x ∉ (ssaSets l).defs ++ (ssaSets l).phiDefs)) ↔
            x ∈ a.ins ∧ isLit x = false ∧ ∀ j ∈ l, x ∉ j.outs := by
          rw [List.mem_filter, Bool.and_eq_true, decide_eq_true_eq, hout]; simp
        rw [List.mem_append, h3, hfil]
        constructor
        · rintro (⟨pre, i, post, rfl, h⟩ | ⟨hx, hl, hj⟩)
          · exact ⟨pre, i, post ++ [a], by simp, h⟩
          · exact ⟨l, a, [], rfl, ha', hx, hl, hj⟩
        · rintro ⟨pre, i, post, e, h, h', hl, hj⟩
          rcases List.eq_nil_or_concat post with rfl | ⟨post', b, rfl⟩
          · obtain ⟨rfl, e2⟩ := List.append_inj' e rfl
            simp only [List.cons.injEq, and_true] at e2
            subst e2
            exact Or.inr ⟨h', hl, hj⟩
          · have e' : l ++ [a] = (pre ++ i :: post') ++ [b] := by rw [e]; simp
            exact Or.inl ⟨pre, i, post', (List.append_inj' e' rfl).1, h, h', hl, hj⟩

theorem phiUsesLoop_spec (k : Nat) (l : List Instr)
    (hfirst : ∀ pre i post, l = pre ++ i :: post → i.op = "PhiFunction" → ∀ j ∈ pre, j.op = "PhiFunction")
    (hlen : ∀ i ∈ l, i.op = "PhiFunction" → k < i.ins.length) :
    ∃ r, phiUsesLoop k l = some r ∧
      (∀ x, x ∈ r.1 ↔ ∃ i ∈ l, i.op = "PhiFunction" ∧ i.ins[k]? = some x ∧ isLit x = false) ∧
      (∀ x, x ∈ r.2 ↔ ∃ i ∈ l, i.op = "PhiFunction" ∧ x ∈ i.outs) := by
  induction l with
  | nil => exact ⟨([], []), rfl, by simp, by simp⟩
  | cons a l ih =>
    by_cases ha : a.op = "PhiFunction"
    · obtain ⟨r, hr, h1, h2⟩ := ih
        (fun pre i post e hi j hj => hfirst (a :: pre) i post (by rw [e]; rfl) hi j (by simp [hj]))
        (fun i hi => hlen i (by simp [hi]))
      have hk := hlen a (by simp) ha
      refine ⟨(if isLit a.ins[k] then r.1 else a.ins[k] :: r.1, a.outs ++ r.2), ?_, ?_, ?_⟩
      · rw [phiUsesLoop, if_pos ((isPhi_iff a).2 ha), List.getElem?_eq_getElem hk, Option.bind_some, hr]
        rfl
      · intro x
        have hak : a.ins[k]? = some x ↔ a.ins[k] = x := by rw [List.getElem?_eq_getElem hk]; simp
        by_cases hl : isLit a.ins[k] = true
        · simp only [hl, if_true, h1, List.mem_cons]
          constructor
          · rintro ⟨i, hi, h⟩; exact ⟨i, Or.inr hi, h⟩
          · rintro ⟨i, rfl | hi, h, h', h''⟩
            · rw [hak.1 h', h''] at hl; simp at hl
            · exact ⟨i, hi, h, h', h''⟩
        · simp only [hl, Bool.false_eq_true, if_false, List.mem_cons, h1]
          constructor
          · rintro (rfl | ⟨i, hi, h⟩)
            · exact ⟨a, Or.inl rfl, ha, hak.2 rfl, by simpa using hl⟩
            · exact ⟨i, Or.inr hi, h⟩
          · rintro ⟨i, rfl | hi, h, h', h''⟩
            · exact Or.inl (hak.1 h').symm
            · exact Or.inr ⟨i, hi, h, h', h''⟩
      · intro x
        simp only [List.mem_append, h2, List.mem_cons]
        constructor
        · rintro (h | ⟨i, hi, h⟩)
          · exact ⟨a, Or.inl rfl, ha, h⟩
          · exact ⟨i, Or.inr hi, h⟩
        · rintro ⟨i, rfl | hi, h, h'⟩
          · exact Or.inl h'
          · exact Or.inr ⟨i, hi, h, h'⟩
    · have hno : ∀ i ∈ a :: l, i.op ≠ "PhiFunction" := by
        intro i hi hop
        obtain ⟨s, t, e⟩ := List.append_of_mem hi
        cases s with
        | nil => simp only [List.nil_append, List.cons.injEq] at e; rw [e.1] at ha; exact ha hop
        | cons c s =>
          simp only [List.cons_append, List.cons.injEq] at e
          exact ha (by rw [e.1]; exact hfirst (c :: s) i t (by rw [← e.1, e.2]; simp) hop c (by simp))
      refine ⟨([], []), ?_, ?_, ?_⟩
      · rw [phiUsesLoop, if_neg (fun h => ha ((isPhi_iff a).1 h))]
      · intro x; simp only [List.not_mem_nil, false_iff]; rintro ⟨i, hi, h, _⟩; exact hno i hi h
      · intro x; simp only [List.not_mem_nil, false_iff]; rintro ⟨i, hi, h, _⟩; exact hno i hi h

theorem succPhis_spec {cfg : String → Block} (wf : WF cfg) (b : String) (ss : List String)
    (hss : ∀ s ∈ ss, s ∈ (cfg b).succs) :
    ∃ r, succPhis cfg b ss = some r ∧
      (∀ x, x ∈ r.1 ↔ ∃ s ∈ ss, PhiArg cfg b s x) ∧ (∀ x, x ∈ r.2 ↔ ∃ s ∈ ss, PhiDef cfg s x) := by
  induction ss with
  | nil => exact ⟨([], []), rfl, by simp, by simp⟩
  | cons s ss ih =>
    obtain ⟨r', hr', h1', h2'⟩ := ih (fun x hx => hss x (by simp [hx]))
    have hs := hss s (by simp)
    have key : ∃ r, (if (cfg s).entries.length > 0 then blockPhiUses b (cfg s) else some ([], [])) = some r ∧
        (∀ x, x ∈ r.1 ↔ PhiArg cfg b s x) ∧ (∀ x, x ∈ r.2 ↔ PhiDef cfg s x) := by
      by_cases he : (cfg s).entries = []
      · refine ⟨([], []), by simp [he], ?_, ?_⟩
        · intro x; simp only [List.not_mem_nil, false_iff]
          rintro ⟨k, i, hk, _⟩; simp [he] at hk
        · intro x; simp only [List.not_mem_nil, false_iff]
          rintro ⟨i, hi, hop, _⟩; exact (wf.phiEntries s i hi hop).1 he
      · have hb := wf.entries b s hs he
        have hlt : (cfg s).entries.idxOf b < (cfg s).entries.length := List.idxOf_lt_length_of_mem hb
        have hidx : (cfg s).entries.idxOf? b = some ((cfg s).entries.idxOf b) := by
          rw [List.idxOf?_eq_some_iff]
          refine ⟨hlt, List.getElem_idxOf hlt, fun j hj => ?_⟩
          have := List.not_of_lt_findIdx (p := (· == b)) (xs := (cfg s).entries) (i := j) hj
          simpa using this
        obtain ⟨r, hr, h1, h2⟩ := phiUsesLoop_spec ((cfg s).entries.idxOf b) (cfg s).instrs (wf.phisFirst s)
          (fun i hi hop => by rw [(wf.phiEntries s i hi hop).2]; exact hlt)
        refine ⟨r, ?_, ?_, h2⟩
        · rw [if_pos (List.length_pos_of_ne_nil he), blockPhiUses, hidx, Option.bind_some, hr]
        · intro x
          rw [h1]
          constructor
          · rintro ⟨i, hi, hop, hk, hl⟩
            exact ⟨_, i, by rw [List.getElem?_eq_getElem hlt, List.getElem_idxOf hlt], hi, hop, hk, hl⟩
          · rintro ⟨k, i, hk, hi, hop, hx, hl⟩
            obtain ⟨hk', hkb⟩ := List.getElem?_eq_some_iff.1 hk
            have : (cfg s).entries.idxOf b = k := by
              rw [← hkb]; exact (wf.entriesNodup s).idxOf_getElem k hk'
            exact ⟨i, hi, hop, by rw [this]; exact hx, hl⟩
    obtain ⟨r, hr, h1, h2⟩ := key
    refine ⟨(r.1 ++ r'.1, r.2 ++ r'.2), ?_, ?_, ?_⟩
    · rw [succPhis, hr, Option.bind_some, hr']; rfl
    · intro x; simp [h1, h1']
    · intro x; simp [h2, h2']

/-- What the extracted information of a block contains. -/
structure InfoSpec (cfg : String → Block) (b : String) (V : Info) : Prop where
  comesFrom : V.comesFrom = (cfg b).comesFrom
  defs : ∀ x, x ∈ V.defs ↔ Def cfg b x
  phiDefs : ∀ x, x ∈ V.phiDefs ↔ PhiDef cfg b x
  upward : ∀ x, (x ∈ V.upward ∨ x ∈ V.phiDefs) ↔ (UseFirst cfg b x ∨ PhiDef cfg b x)
  phiUses : ∀ x, x ∈ V.phiUses ↔ ∃ s ∈ (cfg b).succs, PhiArg cfg b s x
  predPhiDefs : ∀ x, x ∈ V.predPhiDefs ↔ ∃ s ∈ (cfg b).succs, PhiDef cfg s x

theorem blockInfo_spec {cfg : String → Block} (wf : WF cfg) (b : String) :
    ∃ V, blockInfo cfg b = some V ∧ InfoSpec cfg b V := by
  obtain ⟨r, hr, h1, h2⟩ := succPhis_spec wf b (cfg b).succs (fun _ h => h)
  obtain ⟨s1, s2, s3⟩ := ssaSets_spec (cfg b).instrs
  refine ⟨_, by unfold blockInfo; rw [hr]; rfl, rfl, s1, s2, ?_, h1, h2⟩
  intro x
  simp only
  rw [s2, s3]
  constructor
  · rintro (⟨pre, i, post, e, h, hx, hl, hj⟩ | h)
    · exact Or.inl ⟨pre, i, post, e, h, hx, hl, fun j hj' _ => hj j hj'⟩
    · exact Or.inr h
  · rintro (⟨pre, i, post, e, h, hx, hl, hj⟩ | h)
    · by_cases hp : ∃ j ∈ pre, x ∈ j.outs
      · obtain ⟨j, hj', hx'⟩ := hp
        by_cases hop : j.op = "PhiFunction"
        · exact Or.inr ⟨j, by rw [e]; simp [hj'], hop, hx'⟩
        · exact absurd hx' (hj j hj' hop)
      · exact Or.inl ⟨pre, i, post, e, h, hx, hl, fun j hj' hx' => hp ⟨j, hj', hx'⟩⟩
    · exact Or.inr h

end Grey.Liveness
