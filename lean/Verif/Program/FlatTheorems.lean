/-
C54: the assembly of an object runs as its control flow graphs say.
-/
import Verif.Program.FlatOrder
namespace Grey.Program
open List Grey.Layout Grey.Sfs Grey.SymExec Grey.Output

/-! ### Lists -/

theorem split_unique {A : Type} [DecidableEq A] {l l' r r' : List A} {p : A} (hn : (l ++ p :: r).Nodup) (h : l ++ p :: r = l' ++ p :: r') :
    l = l' ∧ r = r' := by
  have h1 : p ∉ l := fun hm => (nodup_append.1 hn).2.2 p hm p (by simp) rfl
  have h2 : p ∉ l' := fun hm => by rw [h] at hn; exact (nodup_append.1 hn).2.2 p hm p (by simp) rfl
  have i1 : (l ++ p :: r).idxOf p = l.length := by rw [idxOf_append_of_notMem h1]; simp
  have i2 : (l' ++ p :: r').idxOf p = l'.length := by rw [idxOf_append_of_notMem h2]; simp
  have := append_inj h (by rw [← i1, ← i2, h])
  simpa using this

theorem flatMap_at {A B : Type} (text : A → List B) (l r : List A) (p : A) (i : Nat) (hi : i < (text p).length) :
    ((l ++ p :: r).flatMap text)[(l.flatMap text).length + i]? = (text p)[i]? := by
  rw [flatMap_append, getElem?_append_right (by omega), Nat.add_sub_cancel_left, flatMap_cons, getElem?_append_left hi]

theorem flatMap_find {A B : Type} (text : A → List B) : ∀ (all : List A) (p : Nat) (a : B), (all.flatMap text)[p]? = some a →
    ∃ l q r i, all = l ++ q :: r ∧ p = (l.flatMap text).length + i ∧ (text q)[i]? = some a := by
  intro all
  induction all with
  | nil => intro p a h; simp at h
  | cons x all ih =>
    intro p a h
    rw [flatMap_cons] at h
    by_cases hp : p < (text x).length
    · rw [getElem?_append_left hp] at h
      exact ⟨[], x, all, p, rfl, by simp, h⟩
    · rw [getElem?_append_right (by omega)] at h
      obtain ⟨l, q, r, i, h1, h2, h3⟩ := ih _ _ h
      exact ⟨x :: l, q, r, i, by rw [h1]; rfl, by rw [flatMap_cons, length_append]; omega, h3⟩

/-! ### Determinism -/

section
variable {V σ : Type} {I : Interp V σ} {arity : String → Nat} {code : List Asm}

theorem idx_dup : ∀ k < 16, controlOps.idxOf ("DUP" ++ toString (k + 1)) = 12 + k := by decide +kernel
theorem idx_swap : ∀ k < 16, controlOps.idxOf ("SWAP" ++ toString (k + 1)) = 28 + k := by decide +kernel
theorem idx_halt : ∀ o ∈ haltOps, 7 ≤ controlOps.idxOf o ∧ controlOps.idxOf o < 12 := by decide +kernel
theorem idx_fixed : controlOps.idxOf "PUSH" = 0 ∧ controlOps.idxOf "PUSH [tag]" = 1 ∧ controlOps.idxOf "POP" = 2 ∧
    controlOps.idxOf "JUMP" = 3 ∧ controlOps.idxOf "JUMPI" = 4 ∧ controlOps.idxOf "tag" = 5 ∧ controlOps.idxOf "JUMPDEST" = 6 := by
  decide +kernel
theorem idx_op {name : String} (h : name ∉ controlOps) : controlOps.idxOf name = 44 := by
  rw [idxOf_eq_length h]
  decide +kernel

/-- The kinds of items. -/
theorem step_kind {s : FState V σ} {x : FState V σ ⊕ Halted V σ} (h : FStep code I arity s x) : ∃ (k : Nat) (a : Asm), code[s.pc]? = some a ∧
    controlOps.idxOf a.name = k ∧
    ((k = 0 ∧ ∃ v, a.value = some v ∧ x = .inl ⟨s.pc + 1, I.num (hexNumber v.toList) :: s.stack, s.world⟩) ∨
     (k = 1 ∧ ∃ t, a.value = some t ∧ x = .inl ⟨s.pc + 1, (I.op "PUSH [TAG]" (some [t]) [] s.world).1 ++ s.stack, (I.op "PUSH [TAG]" (some [t]) [] s.world).2⟩) ∨
     (k = 2 ∧ ∃ y st, s.stack = y :: st ∧ x = .inl ⟨s.pc + 1, st, s.world⟩) ∨
     (k = 3 ∧ ∃ v st p, s.stack = v :: st ∧ Target code I v p ∧ x = .inl ⟨p, st, s.world⟩) ∨
     (k = 4 ∧ ∃ v c st, s.stack = v :: c :: st ∧ ((c ≠ I.num 0 ∧ ∃ p, Target code I v p ∧ x = .inl ⟨p, st, s.world⟩) ∨
       (c = I.num 0 ∧ x = .inl ⟨s.pc + 1, st, s.world⟩))) ∨
     ((k = 5 ∨ k = 6) ∧ x = .inl ⟨s.pc + 1, s.stack, s.world⟩) ∨
     ((7 ≤ k ∧ k < 12) ∧ ∃ args st, s.stack = args ++ st ∧ args.length = arity a.name ∧ x = .inr ⟨a.name, args, s.world⟩) ∨
     (∃ (b c : List V) (y : V), k = 12 + b.length ∧ b.length < 16 ∧ s.stack = b ++ y :: c ∧ x = .inl ⟨s.pc + 1, y :: s.stack, s.world⟩) ∨
     (∃ (b c : List V) (y z : V), k = 28 + b.length ∧ b.length < 16 ∧ s.stack = z :: (b ++ y :: c) ∧ x = .inl ⟨s.pc + 1, y :: (b ++ z :: c), s.world⟩) ∨
     (k = 44 ∧ ∃ args st, s.stack = args ++ st ∧ args.length = arity a.name ∧
       x = .inl ⟨s.pc + 1, (I.op a.name (a.value.map fun x => [x]) args s.world).1 ++ st, (I.op a.name (a.value.map fun x => [x]) args s.world).2⟩)) := by
  obtain ⟨f0, f1, f2, f3, f4, f5, f6⟩ := idx_fixed
  cases h with
  | push h => exact ⟨_, _, h, rfl, .inl ⟨f0, _, rfl, rfl⟩⟩
  | pushTag h => exact ⟨_, _, h, rfl, .inr (.inl ⟨f1, _, rfl, rfl⟩)⟩
  | pop h => exact ⟨_, _, h, rfl, .inr (.inr (.inl ⟨f2, _, _, rfl, rfl⟩))⟩
  | dup hn h => exact ⟨_, _, h, rfl, .inr (.inr (.inr (.inr (.inr (.inr (.inr (.inl ⟨_, _, _, idx_dup _ hn, hn, rfl, rfl⟩)))))))⟩
  | swap hn h => exact ⟨_, _, h, rfl, .inr (.inr (.inr (.inr (.inr (.inr (.inr (.inr (.inl ⟨_, _, _, _, idx_swap _ hn, hn, rfl, rfl⟩))))))))⟩
  | tag h => exact ⟨_, _, h, rfl, .inr (.inr (.inr (.inr (.inr (.inl ⟨.inl f5, rfl⟩)))))⟩
  | jumpdest h => exact ⟨_, _, h, rfl, .inr (.inr (.inr (.inr (.inr (.inl ⟨.inr f6, rfl⟩)))))⟩
  | jump h ht => exact ⟨_, _, h, rfl, .inr (.inr (.inr (.inl ⟨f3, _, _, _, rfl, ht, rfl⟩)))⟩
  | taken h hc ht => exact ⟨_, _, h, rfl, .inr (.inr (.inr (.inr (.inl ⟨f4, _, _, _, rfl, .inl ⟨hc, _, ht, rfl⟩⟩))))⟩
  | notTaken h => exact ⟨_, _, h, rfl, .inr (.inr (.inr (.inr (.inl ⟨f4, _, _, _, rfl, .inr ⟨rfl, rfl⟩⟩))))⟩
  | halt h ho ha => exact ⟨_, _, h, rfl, .inr (.inr (.inr (.inr (.inr (.inr (.inl ⟨idx_halt _ ho, _, _, rfl, ha, rfl⟩))))))⟩
  | op h hn ha => exact ⟨_, _, h, rfl, .inr (.inr (.inr (.inr (.inr (.inr (.inr (.inr (.inr ⟨idx_op hn, _, _, rfl, ha, rfl⟩))))))))⟩

theorem step_det (hu : ∀ v p p', Target code I v p → Target code I v p' → p = p') {s : FState V σ} {x y : FState V σ ⊕ Halted V σ}
    (hx : FStep code I arity s x) (hy : FStep code I arity s y) : x = y := by
  obtain ⟨k, a, ha, hk, h⟩ := step_kind hx
  obtain ⟨k', a', ha', hk', h'⟩ := step_kind hy
  rw [ha, Option.some.injEq] at ha'
  subst ha'
  rw [hk] at hk'
  subst hk'
  obtain ⟨pc, st, w⟩ := s
  simp only at h h' ha
  rcases h with ⟨e, v, h1, rfl⟩ | ⟨e, v, h1, rfl⟩ | ⟨e, z, st1, h1, rfl⟩ | ⟨e, v, st1, p, h1, ht, rfl⟩ | ⟨e, v, c, st1, h1, h2⟩ | ⟨e, rfl⟩ |
    ⟨e, args, st1, h1, hl, rfl⟩ | ⟨b, c, z, e, hb, h1, rfl⟩ | ⟨b, c, z, z', e, hb, h1, rfl⟩ | ⟨e, args, st1, h1, hl, rfl⟩ <;>
  rcases h' with ⟨e', v', h1', rfl⟩ | ⟨e', v', h1', rfl⟩ | ⟨e', y, st1', h1', rfl⟩ | ⟨e', v', st1', p', h1', ht', rfl⟩ | ⟨e', v', c', st1', h1', h2'⟩ | ⟨e', rfl⟩ |
    ⟨e', args', st1', h1', hl', rfl⟩ | ⟨b', c', y, e', hb', h1', rfl⟩ | ⟨b', c', y, y', e', hb', h1', rfl⟩ | ⟨e', args', st1', h1', hl', rfl⟩ <;>
  first
  | omega
  | skip
  · rw [h1, Option.some.injEq] at h1'; subst h1'; rfl
  · rw [h1, Option.some.injEq] at h1'; subst h1'; rfl
  · rw [h1] at h1'; simp only [cons.injEq] at h1'; obtain ⟨rfl, rfl⟩ := h1'; rfl
  · rw [h1] at h1'; simp only [cons.injEq] at h1'; obtain ⟨rfl, rfl⟩ := h1'; rw [hu _ _ _ ht ht']
  · rw [h1] at h1'
    simp only [cons.injEq] at h1'
    obtain ⟨rfl, rfl, rfl⟩ := h1'
    rcases h2 with ⟨h2, p, ht, rfl⟩ | ⟨h2, rfl⟩ <;> rcases h2' with ⟨h2', p', ht', rfl⟩ | ⟨h2', rfl⟩
    · rw [hu _ _ _ ht ht']
    · exact absurd h2' h2
    · exact absurd h2 h2'
    · rfl
  · rfl
  · rw [h1] at h1'
    obtain ⟨rfl, rfl⟩ := append_inj h1' (by omega)
    rfl
  · rw [h1] at h1'
    obtain ⟨rfl, h3⟩ := append_inj h1' (by omega)
    simp only [cons.injEq] at h3
    obtain ⟨rfl, rfl⟩ := h3
    rfl
  · rw [h1] at h1'
    simp only [cons.injEq] at h1'
    obtain ⟨rfl, h3⟩ := h1'
    obtain ⟨rfl, h4⟩ := append_inj h3 (by omega)
    simp only [cons.injEq] at h4
    obtain ⟨rfl, rfl⟩ := h4
    rfl
  · rw [h1] at h1'
    obtain ⟨rfl, rfl⟩ := append_inj h1' (by omega)
    rfl

theorem run_det (hu : ∀ v p p', Target code I v p → Target code I v p' → p = p') {s : FState V σ} {n : Nat} {h : Halted V σ}
    (hr : FRuns code I arity s n (.inr h)) : ∀ {m : Nat} {y : FState V σ ⊕ Halted V σ}, FRuns code I arity s m y →
      (∀ s', y = .inl s' → m < n) ∧ ∀ h', y = .inr h' → h' = h := by
  generalize hx : (Sum.inr h : FState V σ ⊕ Halted V σ) = x at hr
  induction hr with
  | nil => simp at hx
  | halt hs =>
    simp only [Sum.inr.injEq] at hx
    subst hx
    intro m y hy
    cases hy with
    | nil => simp
    | halt hs' =>
      have := step_det hu hs hs'
      simp only [Sum.inr.injEq] at this
      subst this
      simp
    | cons hs' _ => have := step_det hu hs hs'; simp at this
  | cons hs _ ih =>
    intro m y hy
    cases hy with
    | nil => simp
    | halt hs' => have := step_det hu hs hs'; simp at this
    | cons hs' hr' =>
      have := step_det hu hs hs'
      simp only [Sum.inl.injEq] at this
      subst this
      obtain ⟨h1, h2⟩ := ih hx hr'
      exact ⟨fun s' hs' => by have := h1 s' hs'; omega, h2⟩

end

/-! ### Simulation -/

section
variable {V σ : Type} {P : Prog} {I : Interp V σ} {sched : String → String → List String}
  {dest : V → Option (String × String)} (hok : ∀ f F, P.fns f = some F → FnOk P I dest f F) {names : List String}
  {tags : String → Option Nat} {arity : String → Nat} (hitems : ItemsOk P I arity names tags sched)
  (hplace : ∀ f F, P.fns f = some F → PlaceOk P arity F) (ht : TagsOk P I dest names tags)

/-- The items for the tag of a block. -/
def tagItems : Option Nat → List Asm
  | none => []
  | some t => [⟨"tag", some (toString t), none⟩, ⟨"JUMPDEST", none, none⟩]

theorem text_eq {f : String} {b : String} {body : List Asm} {tag : Option Nat} {e : Output.Exit}
    (h : outBlocks P names tags sched f b = some ⟨body, tag.map toString, e⟩) :
    textOf P names tags sched (f, b) = tagItems tag ++ body ++ (if e = .mainExit then [⟨"STOP", none, none⟩] else []) := by
  unfold textOf
  simp only [h, Option.toList_some, flatMap_cons, flatMap_nil, append_nil]
  rw [← code_eq_text]
  unfold Block.code
  cases tag with
  | none => simp [tagItems, asmOf]
  | some t =>
    simp only [Option.map_some, Option.toList_some, flatMap_cons, flatMap_nil, append_nil, asmOf, upper_digits]
    rfl

/-- The machine with a program counter is where the machine with blocks is. -/
def FSim (P : Prog) (names : List String) (tags : String → Option Nat) (sched : String → String → List String)
    (all : List (String × String)) (m : GConfig V σ) (s : FState V σ) : Prop :=
  ∃ l r, all = l ++ (m.fn, m.block) :: r ∧ s = ⟨(l.flatMap (textOf P names tags sched)).length, m.stack, m.mem⟩

theorem run_tag {code : List Asm} {tag : Option Nat} {pc : Nat} {st : List V} {w : σ}
    (h : ∀ i < (tagItems tag).length, code[pc + i]? = (tagItems tag)[i]?) :
    FRuns code I arity ⟨pc, st, w⟩ (tagItems tag).length (.inl ⟨pc + (tagItems tag).length, st, w⟩) := by
  cases tag with
  | none => exact .nil _
  | some t =>
    have h0 := h 0 (by simp [tagItems])
    have h1 := h 1 (by simp [tagItems])
    exact .cons (.tag (by simpa [tagItems] using h0)) (.cons (.jumpdest (by simpa [tagItems] using h1)) (.nil _))

include hok hitems hplace ht in
/-- A block of the machine with blocks is at least one item of the machine with a program counter. -/
theorem flat_step {all : List (String × String)} (hnd : all.Nodup)
    (hall : ∀ f b, (f, b) ∈ all ↔ ∃ F, P.fns f = some F ∧ ∃ B ∈ F.graph.blocks, B.id = b)
    (hadj : ∀ f F, P.fns f = some F → ∀ B ∈ F.graph.blocks, ∀ d, B.fallsTo = some d → ∃ l r, all = l ++ (f, B.id) :: (f, d) :: r)
    {m : GConfig V σ} {x : GConfig V σ ⊕ Halted V σ} (hs : GStep (I.num 0) (flatCode P I arity sched) dest m x)
    {s : FState V σ} (hsim : FSim P names tags sched all m s) :
    (∀ m', x = .inl m' → ∃ n s', 0 < n ∧ FRuns (all.flatMap (textOf P names tags sched)) I arity s n (.inl s') ∧ FSim P names tags sched all m' s') ∧
    ∀ h, x = .inr h → ∃ n, FRuns (all.flatMap (textOf P names tags sched)) I arity s n (.inr h) := by
  obtain ⟨l, r, hlr, rfl⟩ := hsim
  obtain ⟨F, hF, B, hB, hid⟩ := (hall m.fn m.block).1 (by rw [hlr]; simp)
  have ok := hok _ F hF
  have fl := hplace _ F hF
  obtain ⟨seg, last, hout, hli, hnil, _, hk⟩ := hitems _ F hF B hB
  have hne := (out_good hok hitems hplace hF).nonempty _ _ hout
  have htext := text_eq hout
  have hcode : ∀ i < (textOf P names tags sched (m.fn, m.block)).length,
      (all.flatMap (textOf P names tags sched))[(l.flatMap (textOf P names tags sched)).length + i]? =
        (textOf P names tags sched (m.fn, m.block))[i]? := by
    intro i hi
    have := flatMap_at (textOf P names tags sched) l r (m.fn, m.block) i hi
    rwa [← hlr] at this
  rw [← hid] at hcode hlr
  rw [htext] at hcode
  have hnext : ∀ d, B.fallsTo = some d → ∃ r', all = (l ++ [(m.fn, B.id)]) ++ (m.fn, d) :: r' := by
    intro d hd
    obtain ⟨l', r', h⟩ := hadj _ F hF B hB d hd
    obtain ⟨rfl, _⟩ := split_unique (by rw [← hlr]; exact hnd) (hlr.symm.trans h)
    exact ⟨r', by rw [h]; simp⟩
  have hgoto : ∀ (d : String) (st : List V) (w : σ), B.fallsTo = some d → FSim P names tags sched all ⟨m.fn, d, st, w⟩
      ⟨(l.flatMap (textOf P names tags sched)).length + (textOf P names tags sched (m.fn, B.id)).length, st, w⟩ := by
    intro d st w hd
    obtain ⟨r', h⟩ := hnext d hd
    exact ⟨_, r', h, by rw [flatMap_append, length_append]; simp⟩
  have htarget : ∀ (v : V) (f' b' : String) (st : List V) (w : σ), dest v = some (f', b') → ∃ p, Target (all.flatMap (textOf P names tags sched)) I v p ∧
      FSim P names tags sched all ⟨f', b', st, w⟩ ⟨p, st, w⟩ := by
    intro v f' b' st w hd
    obtain ⟨F', hF', ⟨B', hB', rfl⟩, t, htag, hval⟩ := ht.dest v f' b' hd
    obtain ⟨l', r', h⟩ := append_of_mem ((hall f' B'.id).2 ⟨F', hF', B', hB', rfl⟩)
    obtain ⟨seg', last', hout', _⟩ := hitems _ F' hF' B' hB'
    have htext' := text_eq hout'
    refine ⟨_, ⟨toString t, ?_, hval⟩, l', r', h, rfl⟩
    have := flatMap_at (textOf P names tags sched) l' r' (f', B'.id) 0 (by rw [htext', htag]; simp [tagItems])
    rw [← h, htext', htag] at this
    simpa [tagItems] using this
  generalize hall' : all.flatMap (textOf P names tags sched) = code at *
  generalize hpos : (l.flatMap (textOf P names tags sched)).length = pos at *
  -- the tag and the schedule
  have hrun : ∀ st' w', SegRun I arity seg m.stack m.mem st' w' →
      FRuns code I arity ⟨pos, m.stack, m.mem⟩ ((tagItems (tags B.id)).length + seg.length)
        (.inl ⟨pos + (tagItems (tags B.id)).length + seg.length, st', w'⟩) := by
    intro st' w' hr
    refine frun_append (run_tag fun i hi => ?_) (hr code _ fun i hi => ?_)
    · rw [hcode i (by simp only [length_append]; omega), append_assoc, getElem?_append_left hi]
    · rw [Nat.add_assoc, hcode _ (by simp only [length_append]; omega), append_assoc, append_assoc,
        getElem?_append_right (by omega), Nat.add_sub_cancel_left, getElem?_append_left hi]
  have hlastAt : ∀ a, (last ++ (if exitOf B = .mainExit then [⟨"STOP", none, none⟩] else []))[0]? = some a →
      code[pos + (tagItems (tags B.id)).length + seg.length]? = some a := by
    intro a ha
    have hlt := (List.getElem?_eq_some_iff.1 ha).1
    rw [length_append] at hlt
    have := hcode ((tagItems (tags B.id)).length + seg.length) (by simp only [length_append]; omega)
    rw [Nat.add_assoc, this, append_assoc, append_assoc, getElem?_append_right (by omega), Nat.add_sub_cancel_left,
      getElem?_append_right (Nat.le_refl _), Nat.sub_self]
    exact ha
  obtain ⟨e0, e1, e2, e3⟩ := end_exit ok hB (fl.ends B hB)
  have hlen : (textOf P names tags sched (m.fn, B.id)).length = (tagItems (tags B.id)).length + seg.length +
      (last ++ (if exitOf B = .mainExit then [(⟨"STOP", none, none⟩ : Asm)] else [])).length := by
    rw [htext]
    simp only [length_append]
    omega
  have hlast : P.last F B = P.last F B := rfl
  conv at hlast => rhs; unfold Prog.last
  unfold LastItems at hli
  rw [hid] at hk
  cases hs with
  | @next f b b' k' st w st' w' hc hl hr =>
    simp only at hk hid hrun
    rw [hk, Option.some.injEq] at hc
    subst hc
    simp only at hl
    rw [hl] at hlast
    refine ⟨?_, by simp⟩
    intro m' hm'
    simp only [Sum.inl.injEq] at hm'
    subst hm'
    cases hex : P.exit F B <;> rw [hex] at hlast hli <;> simp only [Last.next.injEq, reduceCtorEq] at hlast
    simp only at hli
    have hmain : exitOf B ≠ .mainExit := by
      rw [Ne, e3, hex]
      simp
    rw [if_neg hmain, hli] at hlen
    refine ⟨_, _, ?_, hrun _ _ hr, ?_⟩
    · rw [Nat.pos_iff_ne_zero]
      intro h0
      apply hne
      have h1 : (tagItems (tags B.id)) = [] := length_eq_zero_iff.1 (by omega)
      have h2 : seg = [] := length_eq_zero_iff.1 (by omega)
      rw [h2, hli]
      unfold Block.code
      rw [if_neg hmain]
      cases htg : tags B.id with
      | none => simp
      | some t => rw [htg] at h1; simp [tagItems] at h1
    · have := hgoto b' st' w' hlast.symm
      rw [hlen] at this
      simpa [Nat.add_assoc] using this
  | @jump f b f' b' k' st w t st' w' hc hl hr hd =>
    simp only at hk hid hrun
    rw [hk, Option.some.injEq] at hc
    subst hc
    simp only at hl
    rw [hl] at hlast
    refine ⟨?_, by simp⟩
    intro m' hm'
    simp only [Sum.inl.injEq] at hm'
    subst hm'
    obtain ⟨j, hj⟩ : ∃ j, last = [⟨"JUMP", none, j⟩] := by
      cases hex : P.exit F B <;> rw [hex] at hlast hli <;> simp only [reduceCtorEq] at hlast <;> exact hli
    obtain ⟨p, hp, hsim'⟩ := htarget t f' b' st' w' hd
    exact ⟨_, _, by omega, frun_append (hrun _ _ hr) (.cons (.jump (hlastAt _ (by rw [hj]; rfl)) hp) (.nil _)), hsim'⟩
  | @taken f b b1 f' b' k' st w t c st' w' hc hl hr hz hd =>
    simp only at hk hid hrun
    rw [hk, Option.some.injEq] at hc
    subst hc
    simp only at hl
    rw [hl] at hlast
    refine ⟨?_, by simp⟩
    intro m' hm'
    simp only [Sum.inl.injEq] at hm'
    subst hm'
    cases hex : P.exit F B <;> rw [hex] at hlast hli <;> simp only [reduceCtorEq] at hlast
    simp only at hli
    obtain ⟨p, hp, hsim'⟩ := htarget t f' b' st' w' hd
    exact ⟨_, _, by omega, frun_append (hrun _ _ hr) (.cons (.taken (hlastAt _ (by rw [hli]; rfl)) hz hp) (.nil _)), hsim'⟩
  | @notTaken f b b' k' st w t st' w' hc hl hr =>
    simp only at hk hid hrun
    rw [hk, Option.some.injEq] at hc
    subst hc
    simp only at hl
    rw [hl] at hlast
    refine ⟨?_, by simp⟩
    intro m' hm'
    simp only [Sum.inl.injEq] at hm'
    subst hm'
    cases hex : P.exit F B <;> rw [hex] at hlast hli <;> simp only [Last.jumpi.injEq, reduceCtorEq] at hlast
    simp only at hli
    have hmain : exitOf B ≠ .mainExit := by
      rw [Ne, e3, hex]
      simp
    rw [if_neg hmain, hli] at hlen
    have hr' := hrun _ _ hr
    refine ⟨_, _, Nat.succ_pos _, frun_append hr' (.cons (.notTaken (hlastAt _ (by rw [hli]; rfl))) (.nil _)), ?_⟩
    have := hgoto b' st' w' hlast.symm
    rw [hlen] at this
    simpa [Nat.add_assoc] using this
  | @stop f b k' st w op n args st' w' hc hl hn hr =>
    simp only at hk hid hrun
    rw [hk, Option.some.injEq] at hc
    subst hc
    simp only at hl
    rw [hl] at hlast
    refine ⟨by simp, ?_⟩
    intro h hh
    simp only [Sum.inr.injEq] at hh
    subst hh
    cases hex : P.exit F B <;> rw [hex] at hlast hli <;> simp only [Last.stop.injEq, reduceCtorEq] at hlast
    obtain ⟨hop, hargs⟩ := hlast
    simp only at hli
    have hend := fl.ends B hB
    unfold EndOk at hend
    rw [hex] at hend
    simp only at hend
    obtain ⟨_, _, hend⟩ := hend
    refine ⟨_, frun_append (hrun _ _ hr) (.halt ?_)⟩
    cases hsp : F.split B.id with
    | none =>
      have hmain := e3.2 ⟨hex, hsp⟩
      rw [hsp] at hli
      simp only [Option.map_none, Option.toList_none] at hli
      unfold Fn.exitOp at hop
      unfold Fn.exitArgs at hargs
      rw [hsp] at hop hargs
      simp only [Option.map_none, Option.getD_none, length_nil] at hop hargs
      subst hop
      rw [hsp] at hend
      refine .halt (hlastAt (⟨"STOP", none, none⟩ : Asm) ?_) (by decide) (by rw [hn, hargs, hend.2])
      rw [hli, if_pos hmain]
      rfl
    | some i =>
      rw [hsp] at hli hend
      simp only [Option.map_some, Option.toList_some] at hli hend
      unfold Fn.exitOp at hop
      unfold Fn.exitArgs at hargs
      rw [hsp] at hop hargs
      simp only [Option.map_some, Option.getD_some] at hop hargs
      subst hop
      exact .halt (hlastAt _ (by rw [hli]; rfl)) hend.2.1 (by rw [hn, hargs, hend.2.2.2])

include hok hitems hplace ht in
theorem flat_runs {all : List (String × String)} (hnd : all.Nodup)
    (hall : ∀ f b, (f, b) ∈ all ↔ ∃ F, P.fns f = some F ∧ ∃ B ∈ F.graph.blocks, B.id = b)
    (hadj : ∀ f F, P.fns f = some F → ∀ B ∈ F.graph.blocks, ∀ d, B.fallsTo = some d → ∃ l r, all = l ++ (f, B.id) :: (f, d) :: r)
    {m : GConfig V σ} {tr : List (String × String)} {x : GConfig V σ ⊕ Halted V σ}
    (hs : GRuns (I.num 0) (flatCode P I arity sched) dest m tr x) : ∀ {s : FState V σ}, FSim P names tags sched all m s →
    (∀ m', x = .inl m' → ∃ n s', tr.length ≤ n ∧ FRuns (all.flatMap (textOf P names tags sched)) I arity s n (.inl s') ∧ FSim P names tags sched all m' s') ∧
    ∀ h, x = .inr h → ∃ n, FRuns (all.flatMap (textOf P names tags sched)) I arity s n (.inr h) := by
  induction hs with
  | nil m => intro s hsim; exact ⟨fun m' hm' => by simp only [Sum.inl.injEq] at hm'; subst hm'; exact ⟨0, s, by simp, .nil _, hsim⟩, by simp⟩
  | halt hs => intro s hsim; exact ⟨by simp, (flat_step hok hitems hplace ht hnd hall hadj hs hsim).2⟩
  | cons hs _ ih =>
    intro s hsim
    obtain ⟨n, s', hn, hr, hsim'⟩ := (flat_step hok hitems hplace ht hnd hall hadj hs hsim).1 _ rfl
    obtain ⟨h1, h2⟩ := ih hsim'
    refine ⟨fun m' hm' => ?_, fun h hh => ?_⟩
    · obtain ⟨n', s'', hn', hr', hsim''⟩ := h1 m' hm'
      exact ⟨n + n', s'', by simp only [length_cons]; omega, frun_append hr hr', hsim''⟩
    · obtain ⟨n', hr'⟩ := h2 h hh
      exact ⟨n + n', frun_append hr hr'⟩

include hitems hplace in
theorem targets_unique (hu : TagsUnique P I tags) {all : List (String × String)} (hnd : all.Nodup)
    (hall : ∀ f b, (f, b) ∈ all ↔ ∃ F, P.fns f = some F ∧ ∃ B ∈ F.graph.blocks, B.id = b) :
    ∀ v p p', Target (all.flatMap (textOf P names tags sched)) I v p → Target (all.flatMap (textOf P names tags sched)) I v p' → p = p' := by
  have key : ∀ v p, Target (all.flatMap (textOf P names tags sched)) I v p → ∃ l f F B r t, all = l ++ (f, B.id) :: r ∧
      P.fns f = some F ∧ B ∈ F.graph.blocks ∧ tags B.id = some t ∧ TagValue I (toString t) v ∧
      p = (l.flatMap (textOf P names tags sched)).length := by
    rintro v p ⟨t, hp, hv⟩
    obtain ⟨l, ⟨f, b⟩, r, i, h1, h2, h3⟩ := flatMap_find _ _ _ _ hp
    obtain ⟨F, hF, B, hB, rfl⟩ := (hall f b).1 (by rw [h1]; simp)
    obtain ⟨seg, last, hout, hlast, _, hnt, _⟩ := hitems f F hF B hB
    rw [text_eq hout] at h3
    have hlt : ∀ a ∈ last, a.name ≠ "tag" := by
      unfold LastItems at hlast
      have hend := (hplace f F hF).ends B hB
      unfold EndOk at hend
      intro a ha
      cases hex : P.exit F B with
      | fall => rw [hex] at hlast; simp only at hlast; rw [hlast] at ha; simp at ha
      | jump => rw [hex] at hlast; simp only at hlast; obtain ⟨j, rfl⟩ := hlast; simp only [mem_singleton] at ha; subst ha; simp
      | call g => rw [hex] at hlast; simp only at hlast; obtain ⟨j, rfl⟩ := hlast; simp only [mem_singleton] at ha; subst ha; simp
      | ret => rw [hex] at hlast; simp only at hlast; obtain ⟨j, rfl⟩ := hlast; simp only [mem_singleton] at ha; subst ha; simp
      | branch => rw [hex] at hlast; simp only at hlast; subst hlast; simp only [mem_singleton] at ha; subst ha; simp
      | halt =>
        rw [hex] at hlast hend
        simp only at hlast hend
        cases hsp : F.split B.id with
        | none => rw [hsp] at hlast; simp only [Option.map_none, Option.toList_none] at hlast; rw [hlast] at ha; simp at ha
        | some i =>
          rw [hsp] at hlast hend
          simp only [Option.map_some, Option.toList_some] at hlast hend
          subst hlast
          simp only [mem_singleton] at ha
          subst ha
          intro e
          have := hend.2.2.2.1
          simp only at e
          rw [e] at this
          simp [haltOps] at this
    by_cases hi : i < (tagItems (tags B.id)).length
    · rw [append_assoc, getElem?_append_left hi] at h3
      cases htag : tags B.id with
      | none => rw [htag] at h3; simp [tagItems] at h3
      | some t' =>
        rw [htag] at h3 hi
        have h01 : i = 0 ∨ i = 1 := by simp [tagItems] at hi; omega
        rcases h01 with rfl | rfl
        · simp only [tagItems, getElem?_cons_zero, Option.some.injEq, Asm.mk.injEq, true_and, and_true] at h3
          exact ⟨l, f, F, B, r, t', h1, hF, hB, htag, by rw [h3]; exact hv, by simpa using h2⟩
        · simp [tagItems] at h3
    · exfalso
      rw [append_assoc, getElem?_append_right (by omega)] at h3
      have hm := mem_of_getElem? h3
      simp only [mem_append] at hm
      rcases hm with (hm | hm) | hm
      · exact hnt _ hm rfl
      · exact hlt _ hm rfl
      · split at hm <;> simp at hm
  intro v p p' h h'
  obtain ⟨l, f, F, B, r, t, h1, hF, hB, htag, hv, rfl⟩ := key v p h
  obtain ⟨l', f', F', B', r', t', h1', hF', hB', htag', hv', rfl⟩ := key v p' h'
  obtain rfl := hu.values _ _ _ _ _ htag htag' hv hv'
  obtain ⟨rfl, rfl⟩ := hu.blocks _ _ _ _ _ _ _ hF hF' hB hB' htag htag'
  obtain ⟨rfl, _⟩ := split_unique (by rw [← h1]; exact hnd) (h1.symm.trans h1')
  rfl


theorem runs_snoc {c c' : Config V σ} {tr : List (String × String × σ)} {x : Config V σ ⊕ Halted V σ}
    (h : Runs P I c tr (.inl c')) (hs : step P I c' = some x) : Runs P I c (tr ++ [(c'.fn, c'.block, c'.world)]) x := by
  generalize hy : (Sum.inl c' : Config V σ ⊕ Halted V σ) = y at h
  induction h with
  | nil c =>
    simp only [Sum.inl.injEq] at hy
    subst hy
    cases x with
    | inl c2 => exact .cons hs (.nil _)
    | inr h => exact .halt hs
  | halt => simp at hy
  | cons hs' _ ih => exact .cons hs' (ih hy)

variable {L : Config V σ → σ → Prop} {H : σ → σ → Prop}
  (hcomp : ∀ f F, P.fns f = some F → ∃ st, GCompiled P I L H (flatCode P I arity sched) f F st)

include hok hitems hplace ht hcomp in
/-- The assembly does what the program does, up to `L` and `H`. -/
theorem flat_assembly_runs {M : Fn} (hM : P.fns P.main = some M) (fuel : Nat)
    (hfuel : ∀ f F, P.fns f = some F → F.graph.blocks.length ≤ fuel) :
    ∃ code, assemble P names tags sched fuel = some code ∧ ∀ (env : String → V) (w w' : σ) (below : List V)
      (tr : List (String × String × σ)) (x : Config V σ ⊕ Halted V σ), L ⟨P.main, M.graph.start, env, [], w⟩ w' →
      Runs P I ⟨P.main, M.graph.start, env, [], w⟩ tr x →
        (∀ h, x = .inr h → ∃ n h', FRuns code I arity ⟨0, below, w'⟩ n (.inr h') ∧ h'.op = h.op ∧ h'.args = h.args ∧ H h.world h'.world) ∧
        ∀ c, x = .inl c → ∃ n s, tr.length ≤ n ∧ FRuns code I arity ⟨0, below, w'⟩ n (.inl s) ∧ L c s.world := by
  obtain ⟨all, h1, hnd, hall, hhead, hadj⟩ := assemble_ok hok hitems hplace ht hM fuel hfuel
  refine ⟨_, h1, fun env w w' below tr x hL hr => ?_⟩
  obtain ⟨y, hy, hag⟩ := gsim_runs hok hcomp hr (gsim_start hok hcomp hM env w w' hL below)
  have hsim : FSim P names tags sched all ⟨P.main, M.graph.start, below, w'⟩ ⟨0, below, w'⟩ := by
    cases all with
    | nil => simp at hhead
    | cons p r =>
      simp only [head?_cons, Option.some.injEq] at hhead
      subst hhead
      exact ⟨[], r, rfl, rfl⟩
  obtain ⟨g1, g2⟩ := flat_runs hok hitems hplace ht hnd hall hadj hy hsim
  refine ⟨?_, ?_⟩
  · rintro h rfl
    cases y with
    | inl m => exact absurd hag (by simp [GAgree])
    | inr h' =>
      obtain ⟨n, hn⟩ := g2 _ rfl
      exact ⟨n, h', hn, hag⟩
  · rintro c rfl
    cases y with
    | inr h' => exact absurd hag (by simp [GAgree])
    | inl m =>
      obtain ⟨n, s, hn, hr', l, r, _, rfl⟩ := g1 m rfl
      exact ⟨n, _, by simpa using hn, hr', hag.2.2⟩

include hok hitems hplace ht hcomp in
/-- The other direction. -/
theorem flat_assembly_only_runs (hu : TagsUnique P I tags) {M : Fn} (hM : P.fns P.main = some M) (fuel : Nat)
    (hfuel : ∀ f F, P.fns f = some F → F.graph.blocks.length ≤ fuel) {code : List Asm} (hcode : assemble P names tags sched fuel = some code)
    (env : String → V) (w w' : σ) (below : List V) (hL : L ⟨P.main, M.graph.start, env, [], w⟩ w') {n : Nat} {h : Halted V σ}
    (hr : FRuns code I arity ⟨0, below, w'⟩ n (.inr h)) :
    (∃ tr h', Runs P I ⟨P.main, M.graph.start, env, [], w⟩ tr (.inr h') ∧ h.op = h'.op ∧ h.args = h'.args ∧ H h'.world h.world) ∨
    ∃ tr c, Runs P I ⟨P.main, M.graph.start, env, [], w⟩ tr (.inl c) ∧ step P I c = none := by
  obtain ⟨all, h1, hnd, hall, hhead, hadj⟩ := assemble_ok hok hitems hplace ht hM fuel hfuel
  have huniq := targets_unique hitems hplace hu hnd hall
  obtain ⟨code', hc', hfwd⟩ := flat_assembly_runs hok hitems hplace ht hcomp hM fuel hfuel
  rw [hcode, Option.some.injEq] at h1 hc'
  subst hc'
  rw [← h1] at huniq
  have hdet := fun {m y} (h' : FRuns code I arity ⟨0, below, w'⟩ m y) => run_det huniq hr h'
  by_contra hno
  rw [not_or] at hno
  obtain ⟨no1, no2⟩ := hno
  have hall : ∀ k, ∃ tr c, tr.length = k ∧ Runs P I ⟨P.main, M.graph.start, env, [], w⟩ tr (.inl c) := by
    intro k
    induction k with
    | zero => exact ⟨[], _, rfl, .nil _⟩
    | succ k ih =>
      obtain ⟨tr, c, hk, hrun⟩ := ih
      cases hs : step P I c with
      | none => exact absurd ⟨tr, c, hrun, hs⟩ no2
      | some x =>
        have hrun' := runs_snoc hrun hs
        cases x with
        | inl c2 => exact ⟨_, c2, by simp [hk], hrun'⟩
        | inr h' =>
          obtain ⟨n', h'', hr', ha⟩ := (hfwd env w w' below _ _ hL hrun').1 h' rfl
          have := (hdet hr').2 h'' rfl
          subst this
          exact absurd ⟨_, _, hrun', ha⟩ no1
  obtain ⟨tr, c, hk, hrun⟩ := hall n
  obtain ⟨n', s, hn', hr', _⟩ := (hfwd env w w' below _ _ hL hrun).2 c rfl
  have := (hdet hr').1 s rfl
  omega

end

/-! ### Without stored variables -/

section
variable {C : Type} [Nonempty C] {P : Prog} {I : Interp Nat (Loc → C)} (hnum : ∀ n, I.num n = n) {sched : String → String → List String}
  {dest : Nat → Option (String × String)} (hok : ∀ f F, P.fns f = some F → FnOk P I dest f F)
  (hacc : ∀ f F, P.fns f = some F → ∃ st, Accepted I (sched f) F st) {names : List String} {tags : String → Option Nat}
  {arity : String → Nat} (hflat : ∀ f F, P.fns f = some F → FlatOk P I arity tags (sched f) F) (ht : TagsOk P I dest names tags)

theorem halted_eq {V σ : Type} {h h' : Halted V σ} (h1 : h.op = h'.op) (h2 : h.args = h'.args) (h3 : h.world = h'.world) : h = h' := by
  cases h
  cases h'
  simp_all

include hnum hok hacc hflat ht in
/-- **C54 (partial).** Take a program whose components meet `FnOk` and `FlatOk`, compile it (layouts, specifications, schedules
that the validator accepts), and write down the assembly: the items of every block, the blocks in the order of the traversal, the
main code and then the functions. Then this succeeds, and the machine with a program counter that starts at the first item of
this list, with any stack, does what the control flow graphs say: if the program ends, so does the machine, with the same
operation on the same arguments in the same EVM state; and if the program has executed some blocks, the machine has executed at
least as many items and is in the same EVM state. Missing: what is missing in C53, and variables that the schedule stores in
memory. -/
theorem assembly_runs_partial {M : Fn} (hM : P.fns P.main = some M) (fuel : Nat)
    (hfuel : ∀ f F, P.fns f = some F → F.graph.blocks.length ≤ fuel) :
    ∃ code, assemble P names tags sched fuel = some code ∧ ∀ (env : String → Nat) (w : Loc → C) (below : List Nat)
      (tr : List (String × String × (Loc → C))) (x : Config Nat (Loc → C) ⊕ Halted Nat (Loc → C)),
      Runs P I ⟨P.main, M.graph.start, env, [], w⟩ tr x →
        (∀ h, x = .inr h → ∃ n, FRuns code I arity ⟨0, below, w⟩ n (.inr h)) ∧
        ∀ c, x = .inl c → ∃ n s, tr.length ≤ n ∧ FRuns code I arity ⟨0, below, w⟩ n (.inl s) ∧ s.world = c.world := by
  obtain ⟨code, h1, h2⟩ := flat_assembly_runs hok (accepted_items hnum hok hacc hflat ht)
    (fun f F hF => ⟨(hflat f F hF).place, (hflat f F hF).ends⟩) ht (accepted_flat hnum hok hacc hflat ht) hM fuel hfuel
  refine ⟨code, h1, fun env w below tr x hr => ?_⟩
  obtain ⟨g1, g2⟩ := h2 env w w below tr x rfl hr
  refine ⟨fun h hx => ?_, g2⟩
  obtain ⟨n, h', hn, e1, e2, e3⟩ := g1 h hx
  exact ⟨n, by rwa [← halted_eq e1 e2 e3]⟩

include hnum hok hacc hflat ht in
/-- **C54 (partial)**, the other direction: if tags are unique, whatever the assembly ends with is what the program ends with,
unless the program has no next step (a number of values is wrong, or a call that is not expected to return returns). -/
theorem assembly_only_runs_partial (hu : TagsUnique P I tags) {M : Fn} (hM : P.fns P.main = some M) (fuel : Nat)
    (hfuel : ∀ f F, P.fns f = some F → F.graph.blocks.length ≤ fuel) {code : List Asm} (hcode : assemble P names tags sched fuel = some code)
    (env : String → Nat) (w : Loc → C) (below : List Nat) {n : Nat} {h : Halted Nat (Loc → C)}
    (hr : FRuns code I arity ⟨0, below, w⟩ n (.inr h)) :
    (∃ tr, Runs P I ⟨P.main, M.graph.start, env, [], w⟩ tr (.inr h)) ∨
    ∃ tr c, Runs P I ⟨P.main, M.graph.start, env, [], w⟩ tr (.inl c) ∧ step P I c = none := by
  rcases flat_assembly_only_runs hok (accepted_items hnum hok hacc hflat ht)
    (fun f F hF => ⟨(hflat f F hF).place, (hflat f F hF).ends⟩) ht (accepted_flat hnum hok hacc hflat ht) hu hM fuel hfuel hcode env w w
    below rfl hr with ⟨tr, h', hr', e1, e2, e3⟩ | h
  · exact Or.inl ⟨tr, by rwa [halted_eq e1 e2 e3]⟩
  · exact Or.inr h

end
end Grey.Program
