/-
Where variables are needed next (src/liveness/stack_layout_methods.py:17-68, compute_variable_depth): C84. The layouts place variables in the order of
these depths. A dictionary is a function to `Option`: the loops over it treat every key on its own.
-/
import Mathlib.Data.List.Basic
namespace Grey.Layout
open List

/-! ### Model -/

/-- The three components of a depth: the number of edges, the index of an instruction, the index of an argument. -/
abbrev Depth := Nat × Nat × Nat

/-- The order of tuples. -/
def Depth.lt (a b : Depth) : Bool :=
  decide (a.1 < b.1) || (decide (a.1 = b.1) && (decide (a.2.1 < b.2.1) || (decide (a.2.1 = b.2.1) && decide (a.2.2 < b.2.2))))

/-- What is read of a block: the variables live at its end, its successors, and the arguments of its instructions. -/
structure DInfo where
  liveOut : List String
  succs : List String
  args : List (List String)
  deriving DecidableEq, Repr

/-- src/liveness/stack_layout_methods.py:36-37 -/
def initDepth (far : Nat) (live : List String) : String → Option Depth := fun x => if x ∈ live then some (far, 100, 100) else none

/-- One edge more. -/
def further (d : Depth) : Depth := (d.1 + 1, d.2.1, d.2.2)

/-- src/liveness/stack_layout_methods.py:46-54: the depths of one successor. -/
def mergeSucc (prev out : String → Option Depth) : String → Option Depth := fun x =>
  match prev x with
  | none => out x
  | some p =>
    match out x with
    | some o => if p.lt o then some (further p) else some o
    | none => some (further p)

/-- src/liveness/stack_layout_methods.py:33-54: `current_variable_depth_out`. Successors that have not been visited yet count as empty. -/
def outDepth (far : Nat) (done : String → Option (String → Option Depth)) (i : DInfo) : String → Option Depth :=
  i.succs.foldl (fun out s => mergeSucc ((done s).getD fun _ => none) out) (initDepth far i.liveOut)

/-- The positions of the arguments, in the order of the loops of src/liveness/stack_layout_methods.py:60-62. -/
def positions (args : List (List String)) : List (String × Depth) :=
  args.zipIdx.flatMap fun a => a.1.zipIdx.map fun x => (x.1, (0, a.2, x.2))

/-- `d[x] = v`, one after the other. -/
def assignAll (l : List (String × Depth)) (d : String → Option Depth) : String → Option Depth :=
  l.foldl (fun d e y => if y = e.1 then some e.2 else d y) d

/-- src/liveness/stack_layout_methods.py:57-65: `current_variable_depth_in`. -/
def inDepth (far : Nat) (done : String → Option (String → Option Depth)) (i : DInfo) : String → Option Depth :=
  assignAll (positions i.args) (outDepth far done i)

/-- The loop over the blocks (src/liveness/stack_layout_methods.py:29-65). `none`: `KeyError`. -/
def depthLoop (far : Nat) (info : String → Option DInfo) : List String → (String → Option (String → Option Depth)) →
    Option (String → Option (String → Option Depth))
  | [], done => some done
  | n :: ns, done => (info n).bind fun i => depthLoop far info ns fun b => if b = n then some (inDepth far done i) else done b

/-- `compute_variable_depth` (src/liveness/stack_layout_methods.py:17-68) for the blocks in `order`. -/
def variableDepth (info : String → Option DInfo) (order : List String) : Option (String → Option (String → Option Depth)) :=
  depthLoop (order.length + 1) info order.reverse fun _ => none

/-! ### Specification -/

/-- `x` is the `j`-th argument of the `i`-th instruction of `b`. -/
def Uses (info : String → Option DInfo) (b x : String) (i j : Nat) : Prop :=
  ∃ I args, info b = some I ∧ I.args[i]? = some args ∧ args[j]? = some x

/-- `n` edges lead from `b` to `c`. -/
inductive Edges (info : String → Option DInfo) : Nat → String → String → Prop
  | refl (b : String) : Edges info 0 b b
  | step {n : Nat} {b c d : String} {I : DInfo} : info b = some I → c ∈ I.succs → Edges info n c d → Edges info (n + 1) b d

/-- The depth `d` of `x` in `b` is that of an argument that `d.1` edges lead to, or of a variable that is live at the end of a block. -/
def Realised (info : String → Option DInfo) (far : Nat) (b x : String) (d : Depth) : Prop :=
  (∃ c, Edges info d.1 b c ∧ Uses info c x d.2.1 d.2.2) ∨
  ∃ c k I, Edges info k b c ∧ info c = some I ∧ x ∈ I.liveOut ∧ d = (far + k, 100, 100)

/-! ### Proofs -/

theorem assignAll_eq (x : String) : ∀ (l : List (String × Depth)) (d : String → Option Depth),
    assignAll l d x = ((l.reverse.find? fun e => decide (x = e.1)).map (·.2)).or (d x)
  | [], d => by simp [assignAll]
  | e :: l, d => by
    have h := assignAll_eq x l (fun y => if y = e.1 then some e.2 else d y)
    rw [show assignAll (e :: l) d x = assignAll l (fun y => if y = e.1 then some e.2 else d y) x from rfl, h, reverse_cons, find?_append]
    cases l.reverse.find? fun e => decide (x = e.1) with
    | some _ => simp
    | none => by_cases hx : x = e.1 <;> simp [hx]

theorem mem_positions {args : List (List String)} {e : String × Depth} :
    e ∈ positions args ↔ ∃ l, args[e.2.2.1]? = some l ∧ l[e.2.2.2]? = some e.1 ∧ e.2.1 = 0 := by
  obtain ⟨x, d, i, j⟩ := e
  unfold positions
  simp only [mem_flatMap, mem_map, Prod.exists, mem_zipIdx_iff_getElem?, Prod.mk.injEq]
  constructor
  · rintro ⟨l, i', h1, y, j', h2, rfl, rfl, rfl, rfl⟩
    exact ⟨l, h1, h2, rfl⟩
  · rintro ⟨l, h1, h2, rfl⟩
    exact ⟨l, i, h1, x, j, h2, rfl, rfl, rfl, rfl⟩

section
variable {info : String → Option DInfo} {far : Nat}

theorem Realised.further {b c x : String} {I : DInfo} {d : Depth} (hb : info b = some I) (hc : c ∈ I.succs) (h : Realised info far c x d) :
    Realised info far b x (further d) := by
  rcases h with ⟨e, h1, h2⟩ | ⟨e, k, J, h1, h2, h3, rfl⟩
  · exact Or.inl ⟨e, .step hb hc h1, h2⟩
  · exact Or.inr ⟨e, k + 1, J, .step hb hc h1, h2, h3, by simp [Layout.further, Nat.add_assoc]⟩

theorem outDepth_realised {done : String → Option (String → Option Depth)} {b : String} {I : DInfo} (hb : info b = some I)
    (hd : ∀ c m, done c = some m → ∀ x d, m x = some d → Realised info far c x d) {x : String} {d : Depth}
    (h : outDepth far done I x = some d) : Realised info far b x d := by
  have key : ∀ (ss : List String), (∀ s ∈ ss, s ∈ I.succs) → ∀ out : String → Option Depth,
      (∀ d, out x = some d → Realised info far b x d) →
      ∀ d, ss.foldl (fun out s => mergeSucc ((done s).getD fun _ => none) out) out x = some d → Realised info far b x d := by
    intro ss
    induction ss with
    | nil => intro _ out ho d h; exact ho d h
    | cons s ss ih =>
      intro hs out ho d h
      refine ih (fun t ht => hs t (mem_cons_of_mem _ ht)) _ (fun d h => ?_) d h
      change mergeSucc ((done s).getD fun _ => none) out x = some d at h
      unfold mergeSucc at h
      cases hp : (done s).getD (fun _ => none) x with
      | none => rw [hp] at h; exact ho d h
      | some p =>
        rw [hp] at h
        have hr : Realised info far s x p := by
          cases hds : done s with
          | none => rw [hds] at hp; simp at hp
          | some m => rw [hds] at hp; exact hd s m hds x p hp
        cases hx : out x with
        | none =>
          rw [hx] at h
          simp only [Option.some.injEq] at h
          subst h
          exact hr.further hb (hs s mem_cons_self)
        | some o =>
          rw [hx] at h
          simp only at h
          split at h
          · simp only [Option.some.injEq] at h
            subst h
            exact hr.further hb (hs s mem_cons_self)
          · simp only [Option.some.injEq] at h
            subst h
            exact ho o hx
  refine key I.succs (fun s h => h) _ (fun d h => ?_) d h
  unfold initDepth at h
  split at h
  · rename_i hl
    cases h
    exact Or.inr ⟨b, 0, I, .refl b, hb, hl, rfl⟩
  · cases h

theorem outDepth_live {done : String → Option (String → Option Depth)} {I : DInfo} {x : String} (hx : x ∈ I.liveOut) :
    (outDepth far done I x).isSome := by
  have key : ∀ (ss : List String) (out : String → Option Depth), (out x).isSome →
      (ss.foldl (fun out s => mergeSucc ((done s).getD fun _ => none) out) out x).isSome := by
    intro ss
    induction ss with
    | nil => intro out h; exact h
    | cons s ss ih =>
      intro out h
      refine ih _ ?_
      show (mergeSucc ((done s).getD fun _ => none) out x).isSome = true
      unfold mergeSucc
      obtain ⟨o, ho⟩ := Option.isSome_iff_exists.1 h
      rw [ho]
      cases (done s).getD (fun _ => none) x with
      | none => rfl
      | some p => simp only; split <;> rfl
  exact key _ _ (by simp [initDepth, hx])

/-- What is known about the depths of a block. -/
structure DepthOk (info : String → Option DInfo) (far : Nat) (b : String) (m : String → Option Depth) : Prop where
  realised : ∀ x d, m x = some d → Realised info far b x d
  used : ∀ x i j, Uses info b x i j → ∃ i' j', m x = some (0, i', j') ∧ Uses info b x i' j' ∧ (i < i' ∨ i = i' ∧ j ≤ j')
  live : ∀ I x, info b = some I → x ∈ I.liveOut → (m x).isSome

/-- The last position is the largest. -/
theorem positions_last {args : List (List String)} {x : String} {e : String × Depth}
    (h : (positions args).reverse.find? (fun e => decide (x = e.1)) = some e) {i j : Nat} {l : List String} (hi : args[i]? = some l)
    (hj : l[j]? = some x) : i < e.2.2.1 ∨ i = e.2.2.1 ∧ j ≤ e.2.2.2 := by
  have hsort : (positions args).Pairwise fun a b => a.2.2.1 < b.2.2.1 ∨ a.2.2.1 = b.2.2.1 ∧ a.2.2.2 < b.2.2.2 := by
    unfold positions
    rw [flatMap, pairwise_flatten]
    constructor
    · intro l hl
      obtain ⟨a, ha, rfl⟩ := mem_map.1 hl
      rw [pairwise_map]
      have : (a.1.zipIdx.map Prod.snd).Pairwise (· < ·) := by
        rw [zipIdx_map_snd]
        exact pairwise_lt_range'
      rw [pairwise_map] at this
      exact this.imp fun h => Or.inr ⟨rfl, h⟩
    · rw [pairwise_map]
      have : (args.zipIdx.map Prod.snd).Pairwise (· < ·) := by
        rw [zipIdx_map_snd]
        exact pairwise_lt_range'
      rw [pairwise_map] at this
      refine this.imp fun {a b} h p hp q hq => ?_
      obtain ⟨y, hy, rfl⟩ := mem_map.1 hp
      obtain ⟨z, hz, rfl⟩ := mem_map.1 hq
      exact Or.inl h
  have hm : ((x, ((0 : Nat), i, j)) : String × Depth) ∈ positions args := mem_positions.2 ⟨l, hi, hj, rfl⟩
  obtain ⟨hx, as, bs, hab, hno⟩ := find?_eq_some_iff_append.1 h
  have hrev : positions args = bs.reverse ++ e :: as.reverse := by
    rw [← reverse_reverse (positions args), hab]; simp
  rw [hrev] at hm hsort
  rcases mem_append.1 hm with hm | hm
  · have := (pairwise_append.1 hsort).2.2 _ hm e mem_cons_self
    simp only at this
    omega
  · rcases mem_cons.1 hm with rfl | hm
    · simp
    · have := hno _ (mem_reverse.1 hm)
      simp at this

theorem inDepth_ok {done : String → Option (String → Option Depth)} {b : String} {I : DInfo} (hb : info b = some I)
    (hd : ∀ c m, done c = some m → ∀ x d, m x = some d → Realised info far c x d) : DepthOk info far b (inDepth far done I) := by
  have hfind : ∀ x e, (positions I.args).reverse.find? (fun e => decide (x = e.1)) = some e → x = e.1 ∧ Uses info b x e.2.2.1 e.2.2.2 ∧ e.2.1 = 0 := by
    intro x e h
    have hx : x = e.1 := by simpa using find?_some h
    obtain ⟨l, h1, h2, h3⟩ := mem_positions.1 (mem_reverse.1 (mem_of_find?_eq_some h))
    exact ⟨hx, ⟨I, l, hb, h1, hx ▸ h2⟩, h3⟩
  refine ⟨fun x d h => ?_, fun x i j h => ?_, fun J x hJ hx => ?_⟩
  · unfold inDepth at h
    rw [assignAll_eq] at h
    cases hf : (positions I.args).reverse.find? fun e => decide (x = e.1) with
    | none => rw [hf] at h; exact outDepth_realised hb hd (by simpa using h)
    | some e =>
      rw [hf] at h
      simp only [Option.map_some, Option.some_or, Option.some.injEq] at h
      obtain ⟨_, h2, h3⟩ := hfind x e hf
      subst h
      refine Or.inl ⟨b, ?_, h2⟩
      rw [h3]
      exact .refl b
  · obtain ⟨J, l, hJ, hi, hj⟩ := h
    rw [hb] at hJ
    cases hJ
    have hm : ((x, ((0 : Nat), i, j)) : String × Depth) ∈ (positions I.args).reverse := mem_reverse.2 (mem_positions.2 ⟨l, hi, hj, rfl⟩)
    obtain ⟨e, he⟩ := Option.isSome_iff_exists.1 (find?_isSome (p := fun e : String × Depth => decide (x = e.1)) |>.2 ⟨_, hm, by simp⟩)
    obtain ⟨h1, h2, h3⟩ := hfind x e he
    refine ⟨e.2.2.1, e.2.2.2, ?_, h2, positions_last he hi hj⟩
    unfold inDepth
    rw [assignAll_eq, he]
    simp only [Option.map_some, Option.some_or]
    rw [← h3]
  · rw [hb] at hJ
    cases hJ
    unfold inDepth
    rw [assignAll_eq]
    have := outDepth_live (far := far) (done := done) hx
    cases (positions I.args).reverse.find? fun e => decide (x = e.1) with
    | none => simpa using this
    | some e => rfl

theorem depthLoop_ok : ∀ {ns : List String} {done r : String → Option (String → Option Depth)},
    (∀ b m, done b = some m → DepthOk info far b m) → depthLoop far info ns done = some r →
    (∀ b m, r b = some m → DepthOk info far b m) ∧ ∀ b, (r b).isSome ↔ (done b).isSome ∨ b ∈ ns
  | [], done, r, hd, h => by
    rw [depthLoop] at h
    cases h
    exact ⟨hd, by simp⟩
  | n :: ns, done, r, hd, h => by
    rw [depthLoop] at h
    obtain ⟨i, hi, h⟩ := Option.bind_eq_some_iff.1 h
    obtain ⟨h1, h2⟩ := depthLoop_ok (ns := ns) (fun b m hb => by
      split at hb
      · rename_i e
        cases hb
        subst e
        exact inDepth_ok hi fun c m hc => (hd c m hc).realised
      · exact hd b m hb) h
    refine ⟨h1, fun b => ?_⟩
    rw [h2 b]
    by_cases e : b = n <;> simp [e]

theorem depthLoop_isSome : ∀ (ns : List String) (done : String → Option (String → Option Depth)),
    (depthLoop far info ns done).isSome ↔ ∀ b ∈ ns, (info b).isSome
  | [], done => by simp [depthLoop]
  | n :: ns, done => by
    rw [depthLoop]
    cases hi : info n with
    | none => simp [hi]
    | some i =>
      rw [Option.bind_some, depthLoop_isSome ns]
      simp [hi]

end

/-- **C84.** The depths of variables. They are found if and only if all the blocks have been analysed, and for exactly these blocks. The depth of a variable in a
block is realised: as many edges as it says lead to a block where the variable is that argument of that instruction; or the variable is live
at the end of a block, and then the depth is larger than the number of blocks. A variable that the block itself uses has the depth of its last use
there, and every variable that is live at the end of the block has a depth. -/
theorem depths_realised (info : String → Option DInfo) (order : List String) :
    ((variableDepth info order).isSome ↔ ∀ b ∈ order, (info b).isSome) ∧
    ∀ D, variableDepth info order = some D → (∀ b, (D b).isSome ↔ b ∈ order) ∧
      ∀ b m, D b = some m →
        (∀ x d, m x = some d → Realised info (order.length + 1) b x d) ∧
        (∀ x i j, Uses info b x i j → ∃ i' j', m x = some (0, i', j') ∧ Uses info b x i' j' ∧ (i < i' ∨ i = i' ∧ j ≤ j')) ∧
        (∀ I x, info b = some I → x ∈ I.liveOut → (m x).isSome) := by
  refine ⟨by unfold variableDepth; rw [depthLoop_isSome]; simp, fun D h => ?_⟩
  obtain ⟨h1, h2⟩ := depthLoop_ok (by simp) h
  exact ⟨by simpa using h2, fun b m hb => ⟨(h1 b m hb).realised, (h1 b m hb).used, (h1 b m hb).live⟩⟩

/-! ### How near the recorded use is -/

theorem depthLoop_append {far : Nat} {info : String → Option DInfo} : ∀ {l l' : List String} {done D : String → Option (String → Option Depth)},
    depthLoop far info (l ++ l') done = some D → ∃ done', depthLoop far info l done = some done' ∧ depthLoop far info l' done' = some D
  | [], _, done, _, h => ⟨done, rfl, h⟩
  | n :: l, l', done, D, h => by
    simp only [cons_append, depthLoop] at h ⊢
    obtain ⟨i, hi, h⟩ := Option.bind_eq_some_iff.1 h
    obtain ⟨done', h1, h2⟩ := depthLoop_append h
    exact ⟨done', by rw [hi]; exact h1, h2⟩

theorem depthLoop_other {far : Nat} {info : String → Option DInfo} {b : String} : ∀ {l : List String} {done D : String → Option (String → Option Depth)},
    depthLoop far info l done = some D → b ∉ l → D b = done b
  | [], done, D, h, _ => by cases h; rfl
  | n :: l, done, D, h, hb => by
    simp only [depthLoop] at h
    obtain ⟨i, hi, h⟩ := Option.bind_eq_some_iff.1 h
    rw [depthLoop_other h fun hm => hb (mem_cons_of_mem _ hm), if_neg fun (e : b = n) => hb (e ▸ mem_cons_self)]

theorem lt_first {p o : Depth} (h : p.lt o = true) : p.1 ≤ o.1 := by
  unfold Depth.lt at h
  simp only [Bool.or_eq_true, Bool.and_eq_true, decide_eq_true_eq] at h
  rcases h with h | ⟨h, -⟩ <;> omega

theorem lt_not_first {p o : Depth} (h : p.lt o = false) : o.1 ≤ p.1 := by
  unfold Depth.lt at h
  simp only [Bool.or_eq_false_iff, decide_eq_false_iff_not] at h
  omega

theorem merge_keeps {prev out : String → Option Depth} {x : String} {o : Depth} (h : out x = some o) :
    ∃ d, mergeSucc prev out x = some d ∧ d.1 ≤ o.1 + 1 := by
  unfold mergeSucc
  rw [h]
  cases prev x with
  | none => exact ⟨o, rfl, by omega⟩
  | some p =>
    simp only
    split
    · rename_i hlt
      exact ⟨_, rfl, by have := lt_first hlt; show p.1 + 1 ≤ _; omega⟩
    · exact ⟨o, rfl, by omega⟩

theorem merge_near {prev out : String → Option Depth} {x : String} {p : Depth} (h : prev x = some p) :
    ∃ d, mergeSucc prev out x = some d ∧ d.1 ≤ p.1 + 1 := by
  unfold mergeSucc
  rw [h]
  cases out x with
  | none => exact ⟨_, rfl, Nat.le_refl _⟩
  | some o =>
    simp only
    split
    · exact ⟨_, rfl, Nat.le_refl _⟩
    · rename_i hlt
      exact ⟨o, rfl, by have := lt_not_first (Bool.eq_false_iff.2 hlt); omega⟩

theorem fold_keeps {done : String → Option (String → Option Depth)} {x : String} : ∀ {l : List String} {out : String → Option Depth} {o : Depth}, out x = some o →
    ∃ d, l.foldl (fun out s => mergeSucc ((done s).getD fun _ => none) out) out x = some d ∧ d.1 ≤ o.1 + l.length
  | [], _, o, h => ⟨o, h, Nat.le_refl _⟩
  | s :: l, out, o, h => by
    obtain ⟨d, h1, h2⟩ := merge_keeps (prev := (done s).getD fun _ => none) h
    obtain ⟨e, h3, h4⟩ := fold_keeps (l := l) h1
    exact ⟨e, h3, by simp only [length_cons]; omega⟩

theorem fold_near {done : String → Option (String → Option Depth)} {x s : String} {p : Depth} (h : ((done s).getD fun _ => none) x = some p) :
    ∀ {l : List String} {out : String → Option Depth}, s ∈ l →
    ∃ d, l.foldl (fun out s => mergeSucc ((done s).getD fun _ => none) out) out x = some d ∧ d.1 ≤ p.1 + l.length
  | t :: l, out, hm => by
    by_cases e : s ∈ l
    · obtain ⟨d, h1, h2⟩ := fold_near h (l := l) (out := mergeSucc ((done t).getD fun _ => none) out) e
      exact ⟨d, h1, by simp only [length_cons]; omega⟩
    · have : t = s := ((mem_cons.1 hm).resolve_right e).symm
      subst this
      obtain ⟨d, h1, h2⟩ := merge_near (out := out) h
      obtain ⟨e, h3, h4⟩ := fold_keeps (done := done) (l := l) h1
      exact ⟨e, h3, by simp only [length_cons]; omega⟩

/-- **C84, distances.** The depth of a variable in a block is at most that in any successor that is visited before it, plus the number of successors of the block: one edge if there is one
successor. With two successors it may be one larger than the distance of the nearest use (`not_nearest`). -/
theorem depth_near {info : String → Option DInfo} {pre post : List String} {b s x : String} (hn : (pre ++ b :: post).Nodup) (hs : s ∈ post)
    {D : String → Option (String → Option Depth)} (h : variableDepth info (pre ++ b :: post) = some D) {I : DInfo} (hI : info b = some I) (hm : s ∈ I.succs)
    {m ms : String → Option Depth} (hb : D b = some m) (hms : D s = some ms) {p : Depth} (hp : ms x = some p) :
    ∃ d, m x = some d ∧ d.1 ≤ p.1 + I.succs.length := by
  unfold variableDepth at h
  rw [reverse_append, reverse_cons, append_assoc, singleton_append] at h
  generalize (pre ++ b :: post).length + 1 = far at h
  obtain ⟨done, h1, h2⟩ := depthLoop_append h
  obtain ⟨hn1, hn2, hn3⟩ := nodup_append.1 hn
  obtain ⟨hb1, hb2⟩ := nodup_cons.1 hn2
  have hs' : D s = done s := by
    refine depthLoop_other h2 ?_
    rw [mem_cons, mem_reverse]
    rintro (e | e)
    · exact hb1 (e ▸ hs)
    · exact hn3 s e s (mem_cons_of_mem _ hs) rfl
  simp only [depthLoop, hI, Option.bind_some] at h2
  have hb' := depthLoop_other (b := b) h2 fun e => hn3 b (mem_reverse.1 e) b mem_cons_self rfl
  rw [if_pos rfl, hb] at hb'
  cases hb'
  have hd : ((done s).getD fun _ => none) x = some p := by rw [← hs', hms]; exact hp
  obtain ⟨d, h3, h4⟩ := fold_near hd (l := I.succs) (out := initDepth far I.liveOut) hm
  unfold inDepth
  rw [assignAll_eq]
  cases hf : (positions I.args).reverse.find? fun e => decide (x = e.1) with
  | none => exact ⟨d, h3, h4⟩
  | some e =>
    refine ⟨e.2, rfl, ?_⟩
    have := mem_positions.1 (mem_reverse.1 (mem_of_find?_eq_some hf))
    obtain ⟨l, -, -, h0⟩ := this
    omega

/-! ### Example: `A` branches to `B`, which uses `x` at once, and to `C`, after which `D` uses `y` -/

def exDepthInfo (b : String) : Option DInfo :=
  if b = "A" then some ⟨["x", "y"], ["B", "C"], [["c"]]⟩ else if b = "B" then some ⟨[], [], [["0x00", "x"], ["x"]]⟩
  else if b = "C" then some ⟨["y"], ["D"], []⟩ else if b = "D" then some ⟨[], [], [["y", "y"]]⟩ else none

/-- The depth of a variable in `A`. -/
def exDepthAt (x : String) : Option (Nat × Nat × Nat) :=
  (variableDepth exDepthInfo ["A", "B", "C", "D"]).bind fun D => (D "A").bind fun m => m x

example : exDepthAt "x" = some (1, 1, 0) ∧ exDepthAt "y" = some (2, 0, 1) ∧ exDepthAt "c" = some (0, 0, 0) ∧ exDepthAt "z" = none := by
  decide +kernel

/-- **Finding.** The depth is not the distance of the nearest use. `A` branches to `B`, which uses `x` in its third instruction, and to `C`, after which `x` is used at once. `x` is one edge away,
but the later successor replaces the depth (1, 2, 0) by that of a use two edges away, as the depths are compared before the edge is added. -/
def farInfo (b : String) : Option DInfo :=
  if b = "A" then some ⟨["x"], ["B", "C"], []⟩ else if b = "B" then some ⟨[], [], [["y"], ["y"], ["x"]]⟩
  else if b = "C" then some ⟨["x"], ["D"], []⟩ else if b = "D" then some ⟨[], [], [["x"]]⟩ else none

theorem not_nearest : ((variableDepth farInfo ["A", "B", "C", "D"]).bind fun D => (D "A").bind fun m => m "x") = some (2, 0, 0) ∧ Edges farInfo 1 "A" "B" ∧ Uses farInfo "B" "x" 2 0 :=
  ⟨by decide +kernel, .step (I := ⟨["x"], ["B", "C"], []⟩) (by decide +kernel) (by decide) (.refl _), ⟨_, _, rfl, rfl, rfl⟩⟩

end Grey.Layout
