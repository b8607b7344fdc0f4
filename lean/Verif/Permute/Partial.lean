import Verif.Permute.Spec

/-!
# Whenever reordering ends, the stack is as wanted
-/

namespace Grey.Permute

variable {W : Type}

theorem execAll_append (reach : Nat) (a b : List Ins) (s : List W × (String → Option W)) :
    execAll reach (a ++ b) s = (execAll reach a s).bind (execAll reach b) := by
  induction a generalizing s with
  | nil => rfl
  | cons i is ih =>
    simp only [List.cons_append, execAll]
    cases exec reach i s <;> simp [ih]

/-- The instructions so far lead to the stack, and the registers hold their variables. -/
def Tracks (reach : Nat) (val : String → W) (s0 : List W × (String → Option W)) (s : St) : Prop :=
  ∃ m, execAll reach s.ids s0 = some (s.cstack.map val, m) ∧ ∀ v ∈ s.reg, m v = some (val v)

/-- `Tracks` does not depend on the marks. -/
theorem Tracks.congr {reach : Nat} {val : String → W} {s0 : List W × (String → Option W)} {s t : St}
    (h : Tracks reach val s0 s) (h1 : t.cstack = s.cstack) (h2 : t.reg = s.reg) (h3 : t.ids = s.ids) :
    Tracks reach val s0 t := by
  unfold Tracks
  rw [h1, h2, h3]
  exact h

theorem Tracks.pop {reach : Nat} {val : String → W} {s0 : List W × (String → Option W)} {s t : St}
    (h : Tracks reach val s0 s) {v : String} {c : List String} (hc : s.cstack = v :: c)
    (h1 : t.cstack = c) (h2 : t.reg = s.reg ∨ (v ∈ s.reg ∧ t.reg = s.reg ++ [v])) (h3 : t.ids = s.ids ++ [.pop]) :
    Tracks reach val s0 t := by
  obtain ⟨m, he, hm⟩ := h
  refine ⟨m, ?_, ?_⟩
  · rw [h3, execAll_append, he, hc, h1]
    rfl
  · rcases h2 with h2 | ⟨hv, h2⟩
    · rw [h2]; exact hm
    · rw [h2]
      intro w hw
      rcases List.mem_append.1 hw with hw | hw
      · exact hm w hw
      · rw [List.mem_singleton.1 hw]; exact hm v hv

theorem Tracks.vset {reach : Nat} {val : String → W} {s0 : List W × (String → Option W)} {s t : St}
    (h : Tracks reach val s0 s) {v : String} {c : List String} (hc : s.cstack = v :: c)
    (h1 : t.cstack = c) (h2 : t.reg = s.reg ++ [v]) (h3 : t.ids = s.ids ++ [.vset v]) :
    Tracks reach val s0 t := by
  obtain ⟨m, he, hm⟩ := h
  refine ⟨fun w => if w = v then some (val v) else m w, ?_, ?_⟩
  · rw [h3, execAll_append, he, hc, h1]
    rfl
  · rw [h2]
    intro w hw
    by_cases hwv : w = v
    · simp [hwv]
    · have : w ∈ s.reg := by
        rcases List.mem_append.1 hw with hw | hw
        · exact hw
        · exact absurd (List.mem_singleton.1 hw) hwv
      simp [hwv, hm w this]

theorem Tracks.vget {reach : Nat} {val : String → W} {s0 : List W × (String → Option W)} {s t : St}
    (h : Tracks reach val s0 s) {r : String} (hr : r ∈ s.reg)
    (h1 : t.cstack = r :: s.cstack) (h2 : t.reg = s.reg.erase r) (h3 : t.ids = s.ids ++ [.vget r]) :
    Tracks reach val s0 t := by
  obtain ⟨m, he, hm⟩ := h
  refine ⟨m, ?_, ?_⟩
  · rw [h3, execAll_append, he, h1]
    simp [execAll, exec, hm r hr]
  · rw [h2]
    intro w hw
    exact hm w (List.mem_of_mem_erase hw)

theorem Tracks.swap {reach : Nat} {val : String → W} {s0 : List W × (String → Option W)} {s t : St}
    (h : Tracks reach val s0 s) {k : Nat} (hk : 1 ≤ k) (hk' : k ≤ reach) (hl : k < s.cstack.length)
    (h1 : t.cstack = swapTop s.cstack k) (h2 : t.reg = s.reg) (h3 : t.ids = s.ids ++ [.swap k]) :
    Tracks reach val s0 t := by
  obtain ⟨m, he, hm⟩ := h
  refine ⟨m, ?_, by rw [h2]; exact hm⟩
  rw [h3, execAll_append, he, h1]
  cases hc : s.cstack with
  | nil => rw [hc] at hl; simp at hl
  | cons a c =>
    rw [hc] at hl
    have hk2 : (1 : Int) ≤ k ∧ (k : Int) ≤ reach := by omega
    simp only [execAll, exec, Option.bind_some, if_pos hk2, Int.toNat_natCast]
    rw [List.getElem?_map, List.getElem?_map]
    simp [swapTop, List.getElem?_eq_getElem hl, List.map_set]

/-- A property of the state of the loop that every kind of instruction preserves. -/
structure Closed (reach : Nat) (T : St → Prop) : Prop where
  congr : ∀ {s t : St}, T s → t.cstack = s.cstack → t.reg = s.reg → t.ids = s.ids → T t
  pop : ∀ {s t : St}, T s → ∀ {v : String} {c : List String}, s.cstack = v :: c → t.cstack = c →
    (t.reg = s.reg ∨ (v ∈ s.reg ∧ t.reg = s.reg ++ [v])) → t.ids = s.ids ++ [.pop] → T t
  vset : ∀ {s t : St}, T s → ∀ {v : String} {c : List String}, s.cstack = v :: c → t.cstack = c →
    t.reg = s.reg ++ [v] → t.ids = s.ids ++ [.vset v] → T t
  vget : ∀ {s t : St}, T s → ∀ {r : String}, r ∈ s.reg → t.cstack = r :: s.cstack → t.reg = s.reg.erase r →
    t.ids = s.ids ++ [.vget r] → T t
  swap : ∀ {s t : St}, T s → ∀ {k : Nat}, 1 ≤ k → k ≤ reach → k < s.cstack.length → t.cstack = swapTop s.cstack k →
    t.reg = s.reg → t.ids = s.ids ++ [.swap k] → T t

theorem Tracks.closed (reach : Nat) (val : String → W) (s0 : List W × (String → Option W)) : Closed reach (Tracks reach val s0) where
  congr h := h.congr
  pop h _ _ := h.pop
  vset h _ _ := h.vset
  vget h _ := h.vget
  swap h _ := h.swap

/-- `save` -/
theorem Closed.save {reach : Nat} {T : St → Prop} (hT : Closed reach T) {s t : St}
    (h : T s) (hs : save s = .more t) : T t := by
  unfold Permute.save at hs
  cases hc : s.cstack with
  | nil => rw [hc] at hs; simp at hs
  | cons v c =>
    rw [hc] at hs
    simp only [Step.more.injEq] at hs
    subst hs
    by_cases hv : v ∈ s.reg
    · exact hT.pop h hc rfl (.inr ⟨hv, rfl⟩) (by simp [hv])
    · exact hT.vset h hc rfl rfl (by simp [hv])

theorem getRegister_mem {fin reg cstack : List String} {solved : List Int} {r : String}
    (h : getRegister fin reg cstack solved = some r) : r ∈ reg := List.mem_of_find?_eq_some h

theorem Closed.fetch {reach : Nat} {T : St → Prop} (hT : Closed reach T) {s t : St}
    (h : T s) {fin : List String} {ck : Bool} (hs : fetch fin reach ck s = .more t) :
    T t := by
  unfold Permute.fetch at hs
  split at hs
  · cases hg : getRegister fin s.reg s.cstack s.solved with
    | none => rw [hg] at hs; simp at hs
    | some r =>
      rw [hg] at hs
      dsimp only at hs
      split at hs
      · simp at hs
      · simp only [Step.more.injEq] at hs
        subst hs
        exact hT.vget h (getRegister_mem hg) rfl rfl rfl
  · simp at hs

theorem lastPlace_le (fin cstack : List String) (solved : List Int) (top : String) (n : Nat) :
    lastPlace fin cstack solved top n ≤ n := by
  induction n with
  | zero => simp [lastPlace]
  | succ n ih =>
    unfold lastPlace
    dsimp only
    split
    · omega
    · exact Nat.le_refl _

theorem garbageAt_spec {fin allel cstack : List String} {reach j : Nat}
    (h : garbageAt fin allel cstack reach = some j) :
    1 ≤ j ∧ j ≤ reach ∧ ∃ v, cstack[j]? = some v ∧ allel.count v ≠ fin.count v := by
  have h1 := List.find?_some h
  have h2 := List.mem_of_find?_eq_some h
  simp only [decide_eq_true_eq] at h1
  obtain ⟨hj, v, hv, hc⟩ := h1
  exact ⟨hj, by have := List.mem_range.1 h2; omega, v, hv, hc⟩

theorem unsolvedAt_spec {fin cstack : List String} {solved : List Int} {reach i : Nat}
    (h : unsolvedAt fin cstack solved reach = some i) :
    i ≤ reach ∧ 1 ≤ i ∧ cstack.length - fin.length ≤ i ∧ i < cstack.length ∧
      (fin.length - cstack.length + i : Int) ∉ solved ∧ cstack[0]? ≠ cstack[i]? := by
  have h1 := List.find?_some h
  have h2 := List.mem_of_find?_eq_some h
  simp only [decide_eq_true_eq] at h1
  exact ⟨by have := List.mem_range.1 h2; omega, h1⟩

theorem Closed.stuck {reach : Nat} {T : St → Prop} (hT : Closed reach T) {s t : St}
    (h : T s) {fin : List String} {top : String} {i : Nat}
    (htop : s.cstack[0]? = some top) (hi : i ≤ reach) (hi' : i < s.cstack.length)
    (hs : stuck fin reach top i s = .more t) : T t := by
  unfold Permute.stuck at hs
  dsimp only at hs
  split at hs
  · simp at hs
  · rename_i want hw
    split at hs
    · rename_i hlow
      split at hs
      · simp at hs
      · rename_i hne
        cases hf : findFrom s.cstack want with
        | none => rw [hf] at hs; simp at hs
        | some spos =>
          rw [hf] at hs
          simp only [Step.more.injEq] at hs
          have h1 := List.find?_some hf
          have h2 := List.mem_range.1 (List.mem_of_find?_eq_some hf)
          simp only [decide_eq_true_eq] at h1
          -- the first position is at most the one within the lower part
          have hle : spos ≤ reach := by
            obtain ⟨k, hk, hk2⟩ := List.mem_iff_getElem.1 hlow.2
            rw [List.length_take] at hk
            have hk3 : s.cstack[k]? = some want := by
              rw [List.getElem?_eq_getElem (by omega), ← hk2, List.getElem_take]
            have hk0 : 1 ≤ k := by
              rcases Nat.eq_zero_or_pos k with h0 | h0
              · subst h0
                rw [htop] at hk3
                exact absurd (Option.some.inj hk3) hne
              · exact h0
            refine Nat.le_of_not_lt fun hc => ?_
            have hfd := (List.find?_eq_some_iff_getElem.1 hf).2
            obtain ⟨q, hq, hq2, hq3⟩ := hfd
            rw [List.getElem_range] at hq2
            have hkq : k < q := by omega
            have := hq3 k hkq
            rw [List.getElem_range] at this
            simp [hk0, hk3] at this
          subst hs
          exact hT.swap h h1.1 hle h2 rfl rfl rfl
    · split at hs
      · split at hs
        · refine hT.save (hT.congr h (t := { s with solved := unmark s.solved (s.base fin) }) rfl rfl rfl) hs
        · rename_i hi0
          refine hT.save ?_ hs
          have key : ∀ k, 1 ≤ k → k ≤ i → T
              { s.swapped k with solved := unmark (unmark s.solved (s.base fin + k)) (s.base fin) } :=
            fun k h1 h2 => hT.swap h h1 (by omega) (by omega) rfl rfl rfl
          refine key _ ?_ ?_
          · split
            · split <;> omega
            · omega
          · split
            · rename_i hu
              split
              · have := lastPlace_le fin s.cstack s.solved top ((s.cstack.length - fin.length - 1 : Int)).toNat
                omega
              · exact Nat.le_refl _
            · omega
      · exact hT.fetch h hs

theorem getAll_closed {reach : Nat} {T : St → Prop} (hT : Closed reach T) (l : List String) {s t : St}
    (h : T s) (hs : getAll s l = .done t) : T t := by
  induction l generalizing s with
  | nil =>
    simp only [getAll, Step.done.injEq] at hs
    rw [← hs]; exact h
  | cons r rest ih =>
    unfold getAll at hs
    split at hs
    · rename_i hr
      exact ih (hT.vget h hr rfl rfl rfl) hs
    · simp at hs

theorem getAll_more (l : List String) (s t : St) : getAll s l ≠ .more t := by
  induction l generalizing s with
  | nil => simp [getAll]
  | cons r rest ih =>
    unfold getAll
    split
    · exact ih _
    · simp

theorem stuck_done (fin : List String) (reach : Nat) (top : String) (i : Nat) (s t : St) :
    stuck fin reach top i s ≠ .done t := by
  unfold stuck save fetch
  intro h
  dsimp only at h
  repeat' split at h
  all_goals simp at h

theorem advance_le (fin cstack : List String) (l : Int) (n : Nat) : advance fin cstack l n ≤ l := by
  induction n generalizing l with
  | zero => exact Int.le_refl _
  | succ n ih =>
    unfold advance
    split
    · have := ih (l - 1); omega
    · exact Int.le_refl _

theorem save_lpos {s t : St} (h : save s = .more t) : t.lpos = s.lpos := by
  unfold save at h
  split at h
  · simp at h
  · simp only [Step.more.injEq] at h
    rw [← h]

theorem fetch_lpos {fin : List String} {reach : Nat} {ck : Bool} {s t : St} (h : fetch fin reach ck s = .more t) :
    t.lpos = s.lpos := by
  unfold fetch at h
  dsimp only at h
  repeat' split at h
  all_goals first
    | (simp at h; done)
    | (simp only [Step.more.injEq] at h; rw [← h])

theorem stuck_lpos {fin : List String} {reach : Nat} {top : String} {i : Nat} {s t : St}
    (h : stuck fin reach top i s = .more t) : t.lpos = s.lpos := by
  unfold stuck at h
  dsimp only at h
  split at h
  · simp at h
  · split at h
    · split at h
      · simp at h
      · split at h
        · simp at h
        · simp only [Step.more.injEq] at h
          rw [← h]; rfl
    · split at h
      · split at h
        · exact (save_lpos h).trans rfl
        · exact (save_lpos h).trans rfl
      · exact fetch_lpos h

theorem unsettled_lpos {fin allel : List String} {reach : Nat} {top : String} {s t : St} (h : unsettled fin reach allel top s = .more t) :
    t.lpos = s.lpos := by
  unfold unsettled at h
  dsimp only at h
  split at h
  · rw [← Step.more.inj h]; rfl
  · split at h
    · rw [← Step.more.inj h]; rfl
    · exact stuck_lpos h

theorem settled_lpos {fin allel : List String} {reach : Nat} {top : String} {s t : St} (h : settled fin reach allel top s = .more t) :
    t.lpos = s.lpos := by
  unfold settled at h
  dsimp only at h
  split at h
  · rw [← Step.more.inj h]; rfl
  · split at h
    · exact (save_lpos h).trans rfl
    · split at h
      · simp at h
      · split at h
        · split at h
          · rw [← Step.more.inj h]; rfl
          · simp at h
        · split at h
          · split at h
            · rw [← Step.more.inj h]; rfl
            · simp at h
          · exact fetch_lpos h

theorem round_lpos {fin : List String} {reach : Nat} {s t : St} (h : round fin reach s = .more t) :
    t.lpos = advance fin s.cstack s.lpos (fin.length + s.cstack.length) := by
  unfold round at h
  split at h
  · simp at h
  dsimp only at h
  split at h
  · simp at h
  split at h
  · exact absurd h (getAll_more _ _ _)
  split at h
  · simp at h
  split at h
  · rw [← Step.more.inj h]
  split at h
  · rw [← Step.more.inj h]
  split at h
  · exact (unsettled_lpos h).trans rfl
  · exact (settled_lpos h).trans rfl

theorem save_done (s t : St) : save s ≠ .done t := by
  unfold save
  split <;> simp

theorem fetch_done (fin : List String) (reach : Nat) (ck : Bool) (s t : St) : fetch fin reach ck s ≠ .done t := by
  unfold fetch
  intro h
  dsimp only at h
  repeat' split at h
  all_goals simp at h

theorem Closed.unsettled {reach : Nat} {T : St → Prop} (hT : Closed reach T) {s : St} {fin allel : List String} {top : String}
    (h : T s) (htop : s.cstack[0]? = some top) (hlen : 0 < s.cstack.length) (t : St)
    (hs : unsettled fin reach allel top s = .more t ∨ unsettled fin reach allel top s = .done t) : T t := by
  unfold Permute.unsettled at hs
  dsimp only at hs
  have hi := lastPlace_le fin s.cstack s.solved top (min reach (s.cstack.length - 1))
  split at hs
  · rename_i hp
    simp only [Step.more.injEq, reduceCtorEq, or_false] at hs
    subst hs
    exact hT.swap h hp.1 (by omega) (by omega) rfl rfl rfl
  · split at hs
    · rename_i j hj
      simp only [Step.more.injEq, reduceCtorEq, or_false] at hs
      subst hs
      obtain ⟨h1, h2, v, h3, -⟩ := garbageAt_spec hj
      exact hT.swap h h1 h2 (List.getElem?_eq_some_iff.1 h3).1 rfl rfl rfl
    · rcases hs with hs | hs
      · exact hT.stuck h htop (by omega) (by omega) hs
      · exact absurd hs (stuck_done _ _ _ _ _ _)

theorem Closed.settled {reach : Nat} {T : St → Prop} (hT : Closed reach T) {s : St} {fin allel : List String} {top : String}
    (h : T s) (hl : s.lpos < 0) (t : St)
    (hs : settled fin reach allel top s = .more t ∨ settled fin reach allel top s = .done t) : T t := by
  unfold Permute.settled at hs
  dsimp only at hs
  split at hs
  · rename_i j hj
    simp only [Step.more.injEq, reduceCtorEq, or_false] at hs
    subst hs
    obtain ⟨h1, h2, v, h3, -⟩ := garbageAt_spec hj
    exact hT.swap h h1 h2 (List.getElem?_eq_some_iff.1 h3).1 rfl rfl rfl
  · split at hs
    · rcases hs with hs | hs
      · refine hT.save ?_ hs
        exact hT.congr h rfl rfl rfl
      · exact absurd hs (save_done _ _)
    · rename_i hlow
      split at hs
      · simp at hs
      · split at hs
        · split at hs
          · rename_i hlow1
            simp only [Step.more.injEq, reduceCtorEq, or_false] at hs
            subst hs
            exact hT.swap h (by omega) (by omega) (by omega) rfl rfl rfl
          · simp at hs
        · split at hs
          · rename_i i hi
            obtain ⟨h1, h2, -, h3, -⟩ := unsolvedAt_spec hi
            split at hs
            · simp only [Step.more.injEq, reduceCtorEq, or_false] at hs
              subst hs
              exact hT.swap h h2 h1 h3 rfl rfl rfl
            · simp at hs
          · rcases hs with hs | hs
            · exact hT.fetch h hs
            · exact absurd hs (fetch_done _ _ _ _ _)

/-- One round. -/
theorem round_closed {reach : Nat} {T : St → Prop} (hT : Closed reach T) {s : St} {fin : List String}
    (h : T s) (hl : s.lpos < 0) (t : St) (hs : round fin reach s = .more t ∨ round fin reach s = .done t) :
    T t := by
  unfold round at hs
  split at hs
  · rcases hs with hs | hs
    · simp at hs
    · simp only [Step.done.injEq] at hs
      rw [← hs]; exact h
  · dsimp only at hs
    split at hs
    · simp at hs
    · split at hs
      · rcases hs with hs | hs
        · exact absurd hs (getAll_more _ _ _)
        · exact getAll_closed hT _ h hs
      · split at hs
        · simp at hs
        · rename_i top rest hc
          have hlen : 0 < s.cstack.length := by rw [hc]; simp
          have htop : s.cstack[0]? = some top := by rw [hc]; rfl
          have h' : T { s with lpos := advance fin s.cstack s.lpos (fin.length + s.cstack.length) } :=
            hT.congr h rfl rfl rfl
          have hl0 := advance_le fin s.cstack s.lpos (fin.length + s.cstack.length)
          split at hs
          · simp only [Step.more.injEq, reduceCtorEq, or_false] at hs
            subst hs
            exact hT.pop h hc rfl (.inl rfl) rfl
          · split at hs
            · simp only [Step.more.injEq, reduceCtorEq, or_false] at hs
              subst hs
              exact hT.congr h rfl rfl rfl
            · split at hs
              · exact hT.unsettled h' htop hlen t hs
              · exact hT.settled h' (by dsimp only; omega) t hs

theorem run_closed {reach : Nat} {T : St → Prop} (hT : Closed reach T) {fin : List String} {ids : List Ins} (n : Nat)
    {s : St} (h : T s) (hl : s.lpos < 0) (hr : run fin reach n s = some (some ids)) :
    ∃ t, T t ∧ t.cstack = fin ∧ t.reg = [] ∧ t.ids = ids := by
  induction n generalizing s with
  | zero => simp [run] at hr
  | succ n ih =>
    unfold run at hr
    cases hq : round fin reach s with
    | err => rw [hq] at hr; simp at hr
    | more t =>
      rw [hq] at hr
      refine ih (round_closed hT h hl t (.inl hq)) ?_ hr
      have := round_lpos hq
      have := advance_le fin s.cstack s.lpos (fin.length + s.cstack.length)
      omega
    | done t =>
      rw [hq] at hr
      simp only [Option.some.injEq] at hr
      split at hr
      · rename_i hf
        exact ⟨t, round_closed hT h hl t (.inr hq), hf.1, hf.2, Option.some.inj hr⟩
      · simp at hr

theorem run_tracks {reach : Nat} {val : String → W} {s0 : List W × (String → Option W)} {fin : List String} {ids : List Ins} (n : Nat)
    {s : St} (h : Tracks reach val s0 s) (hl : s.lpos < 0) (hr : run fin reach n s = some (some ids)) :
    ∃ m, execAll reach ids s0 = some (fin.map val, m) := by
  obtain ⟨t, ⟨m, hm, -⟩, h1, -, h2⟩ := run_closed (Tracks.closed reach val s0) n h hl hr
  exact ⟨m, by rw [← h2, hm, h1]⟩

/-- C71. Whenever reordering the stack ends without an exception, its instructions can be executed (every `SWAP` is within reach, every
`VGET` reads a register that was set) and turn the stack into the wanted one, for all values of the variables and whatever was in the
registers before. -/
theorem permute_correct {fin : List String} {reach fuel : Nat} {cstack : List String} {solved : List Int} {ids : List Ins}
    (h : permute fin reach fuel cstack solved = some (some ids)) (val : String → W) (regs : String → Option W) :
    ∃ regs', execAll reach ids (cstack.map val, regs) = some (fin.map val, regs') :=
  run_tracks fuel (s := ⟨cstack, solved, [], -1, []⟩) ⟨regs, rfl, by simp⟩ (by simp) h

/-- Five values that have to be turned around, with a reach of two: registers are needed. -/
example : ∃ ids, permute ["a", "b", "c", "d", "e"] 2 100 ["e", "d", "c", "b", "a"] [2] = some (some ids) ∧
    Ins.vget "e" ∈ ids :=
  ⟨((permute ["a", "b", "c", "d", "e"] 2 100 ["e", "d", "c", "b", "a"] [2]).bind id).getD [], by decide +kernel, by decide +kernel⟩

end Grey.Permute
