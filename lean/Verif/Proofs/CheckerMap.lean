import Verif.Model.Checker

namespace Regalloc.Checker

theorem mem_of_filter {α : Type} {p : α → Bool} {l : List α} {a : α} (h : a ∈ l.filter p) : a ∈ l :=
  (List.mem_filter.mp h).1

namespace CMap

theorem get_filter_ne (m : CMap) (a b : Allocation) :
    CMap.get (m.filter (fun p => p.1 ≠ a)) b = if b = a then none else m.get b := by
  induction m with
  | nil => simp [CMap.get]
  | cons p m ih =>
    by_cases hp : p.1 = a
    · rw [List.filter_cons_of_neg (by simpa using hp), ih]
      by_cases hb : b = a
      · simp [hb]
      · simp only [hb, if_false]
        rw [CMap.get, if_neg (by rw [hp]; exact fun h => hb h.symm)]
    · rw [List.filter_cons_of_pos (by simpa using hp)]
      rw [CMap.get, CMap.get, ih]
      by_cases hpb : p.1 = b
      · have : b ≠ a := by rw [← hpb]; exact hp
        simp [hpb, this]
      · simp [hpb]

theorem get_del (m : CMap) (a b : Allocation) : (m.del a).get b = if b = a then none else m.get b :=
  get_filter_ne m a b

theorem get_put (m : CMap) (a b : Allocation) (v : CVal) :
    (m.put a v).get b = if b = a then some v else m.get b := by
  unfold put
  rw [CMap.get, get_del]
  by_cases h : b = a
  · simp [h]
  · simp only [h, if_false]; rw [if_neg (fun h' => h h'.symm)]

theorem get_mem {m : CMap} {a : Allocation} {v : CVal} (h : m.get a = some v) : (a, v) ∈ m := by
  induction m with
  | nil => simp [CMap.get] at h
  | cons p m ih =>
    unfold CMap.get at h
    split at h
    · next hp =>
      simp at h
      subst h; subst hp
      simp
    · exact List.mem_cons_of_mem _ (ih h)

theorem get_of_mem {m : CMap} (hnd : (m.map Prod.fst).Nodup) {p : Allocation × CVal} (h : p ∈ m) :
    m.get p.1 = some p.2 := by
  induction m with
  | nil => simp at h
  | cons q m ih =>
    simp only [List.map_cons, List.nodup_cons] at hnd
    unfold CMap.get
    rcases List.mem_cons.mp h with rfl | h
    · simp
    · rw [if_neg, ih hnd.2 h]
      intro he
      exact hnd.1 (by rw [he]; exact List.mem_map_of_mem h)

theorem get_isSome_iff (m : CMap) (a : Allocation) : (m.get a).isSome ↔ a ∈ m.map Prod.fst := by
  induction m with
  | nil => simp [CMap.get]
  | cons p m ih =>
    unfold CMap.get
    by_cases h : p.1 = a
    · simp [h]
    · rw [if_neg h, ih, List.map_cons, List.mem_cons]
      exact ⟨.inr, fun h' => h'.resolve_left (fun e => h e.symm)⟩

theorem get_merge (m n : CMap) (a : Allocation) : (m.merge n).get a =
    match m.get a, n.get a with
    | some v, some w => some (v.meet w)
    | _, _ => none := by
  induction m with
  | nil => simp [merge, CMap.get]
  | cons p m ih =>
    unfold merge at ih ⊢
    rw [List.filterMap_cons]
    cases hn : n.get p.1 with
    | none =>
      simp only
      rw [ih]
      conv => rhs; rw [CMap.get]
      by_cases h : p.1 = a
      · subst h; rw [hn]; simp
      · simp [h]
    | some w =>
      simp only
      rw [CMap.get, CMap.get]
      by_cases h : p.1 = a
      · subst h; simp [hn]
      · simp only [h, if_false]; exact ih

theorem get_mapVal (m : CMap) (g : CVal → CVal) (a : Allocation) :
    CMap.get (m.map (fun p => (p.1, g p.2))) a = (m.get a).map g := by
  induction m with
  | nil => simp [CMap.get]
  | cons p m ih =>
    rw [List.map_cons, CMap.get, CMap.get]
    by_cases h : p.1 = a <;> simp [h, ih]

/-- Drop a label from a value. -/
def dropLabel (v : VReg) : CVal → CVal
  | .univ => .univ
  | .vregs s => .vregs (s.filter (· ≠ v))

theorem removeVreg_some {v : VReg} {m m' : CMap} (h : m.removeVreg? v = some m') :
    m' = m.map (fun p => (p.1, dropLabel v p.2)) := by
  induction m generalizing m' with
  | nil => simp [removeVreg?] at h; subst h; rfl
  | cons p m ih =>
    unfold removeVreg? at h
    split at h
    · next w m1 hw hm =>
      simp at h; subst h
      rw [List.map_cons, ih hm]
      congr 2
      cases hp : p.2 <;> rw [hp] at hw <;> simp [CVal.removeVreg?] at hw
      subst hw; simp [dropLabel]
    · simp at h

theorem removeVreg_isSome {v : VReg} {m : CMap} (h : ∀ p ∈ m, p.2 ≠ .univ) :
    m.removeVreg? v = some (m.map (fun p => (p.1, dropLabel v p.2))) := by
  induction m with
  | nil => rfl
  | cons p m ih =>
    unfold removeVreg?
    rw [ih (fun q hq => h q (List.mem_cons_of_mem _ hq))]
    have := h p (by simp)
    cases hp : p.2 with
    | univ => exact absurd hp this
    | vregs s => simp [CVal.removeVreg?, dropLabel, hp]

end CMap

/-- The state claims that location `a` holds the value of register `v`. -/
def Claims (S : CState) (a : Allocation) (v : VReg) : Prop := ∃ s, S.get a = some (.vregs s) ∧ v ∈ s

/-- Well-formed states over finite universes. -/
def MapWf (UA : List Allocation) (UV : List VReg) (m : CMap) : Prop :=
  (m.map Prod.fst).Nodup ∧ ∀ p ∈ m, p.1 ∈ UA ∧ ∃ s, p.2 = .vregs s ∧ ∀ v ∈ s, v ∈ UV

def StWf (UA : List Allocation) (UV : List VReg) : CState → Prop
  | .top => True
  | .allocs m => MapWf UA UV m

variable {UA : List Allocation} {UV : List VReg}

theorem MapWf.nil : MapWf UA UV [] := ⟨by simp, by simp⟩

theorem StWf.defined {S : CState} (h : StWf UA UV S) : MapWf UA UV S.defined := by
  cases S with
  | top => exact MapWf.nil
  | allocs m => exact h

theorem MapWf.noUniverse {m : CMap} (h : MapWf UA UV m) : ∀ p ∈ m, p.2 ≠ .univ := by
  intro p hp
  obtain ⟨_, s, hs, _⟩ := h.2 p hp
  simp [hs]

theorem MapWf.get {m : CMap} (h : MapWf UA UV m) {a : Allocation} {v : CVal} (hg : m.get a = some v) :
    a ∈ UA ∧ ∃ s, v = .vregs s ∧ ∀ x ∈ s, x ∈ UV := h.2 (a, v) (CMap.get_mem hg)

theorem MapWf.del {m : CMap} (h : MapWf UA UV m) (a : Allocation) : MapWf UA UV (m.del a) :=
  ⟨h.1.sublist (List.filter_sublist.map _), fun p hp => h.2 p (mem_of_filter hp)⟩

theorem MapWf.put {m : CMap} (h : MapWf UA UV m) {a : Allocation} {s : List VReg} (ha : a ∈ UA)
    (hs : ∀ v ∈ s, v ∈ UV) : MapWf UA UV (m.put a (.vregs s)) := by
  refine ⟨?_, ?_⟩
  · unfold CMap.put
    rw [List.map_cons, List.nodup_cons]
    refine ⟨?_, (h.del a).1⟩
    intro hm
    obtain ⟨p, hp, hpe⟩ := List.mem_map.mp hm
    have := List.mem_filter.mp hp
    simp at this
    exact this.2 hpe
  · intro p hp
    rcases List.mem_cons.mp hp with rfl | hp
    · exact ⟨ha, s, rfl, hs⟩
    · exact (h.del a).2 p hp

theorem MapWf.mapVal {m : CMap} (h : MapWf UA UV m) (g : CVal → CVal)
    (hg : ∀ s, (∀ v ∈ s, v ∈ UV) → ∃ t, g (.vregs s) = .vregs t ∧ ∀ v ∈ t, v ∈ UV) :
    MapWf UA UV (m.map (fun p => (p.1, g p.2))) := by
  refine ⟨by simpa [Function.comp_def] using h.1, ?_⟩
  intro p hp
  obtain ⟨q, hq, rfl⟩ := List.mem_map.mp hp
  obtain ⟨h1, s, hs, h2⟩ := h.2 q hq
  obtain ⟨t, ht, h3⟩ := hg s h2
  exact ⟨h1, t, by simp [hs, ht], h3⟩

theorem MapWf.merge {m n : CMap} (h : MapWf UA UV m) (h' : MapWf UA UV n) : MapWf UA UV (m.merge n) := by
  unfold CMap.merge
  refine ⟨?_, ?_⟩
  · have : List.Sublist ((m.filterMap (fun p => match n.get p.1 with
        | some w => some (p.1, p.2.meet w) | none => none)).map Prod.fst) (m.map Prod.fst) := by
      clear h
      induction m with
      | nil => simp
      | cons p m ih =>
        rw [List.filterMap_cons]
        cases hn : n.get p.1 with
        | none => simp only [List.map_cons]; exact ih.cons _
        | some w => simp only [List.map_cons]; exact ih.cons_cons _
    exact h.1.sublist this
  · intro p hp
    obtain ⟨q, hq, he⟩ := List.mem_filterMap.mp hp
    split at he
    · next w hw =>
      simp at he; subst he
      obtain ⟨h1, s, hs, h2⟩ := h.2 q hq
      obtain ⟨_, t, ht, h3⟩ := h'.get hw
      refine ⟨h1, s.filter (· ∈ t), by simp [hs, ht, CVal.meet], ?_⟩
      intro v hv
      exact h2 v (mem_of_filter hv)
    · simp at he

theorem StWf.meet {S T : CState} (h : StWf UA UV S) (h' : StWf UA UV T) : StWf UA UV (S.meet T) := by
  cases S <;> cases T <;> simp [CState.meet] <;> first | trivial | exact h | exact h' | exact MapWf.merge h h'

theorem applyDefs_wf (ps : List (Op × Allocation)) {m : CMap} (h : MapWf UA UV m)
    (h1 : ∀ p ∈ ps, p.2 ∈ UA) (h2 : ∀ p ∈ ps, p.1.vreg ∈ UV) :
    ∃ m', applyDefs? ps m = some m' ∧ MapWf UA UV m' := by
  induction ps generalizing m with
  | nil => exact ⟨m, rfl, h⟩
  | cons p ps ih =>
    unfold applyDefs?
    have h1' := fun q hq => h1 q (List.mem_cons_of_mem _ hq)
    have h2' := fun q hq => h2 q (List.mem_cons_of_mem _ hq)
    split
    · exact ih h h1' h2'
    · rw [CMap.removeVreg_isSome h.noUniverse]
      simp only
      refine ih (MapWf.put (h.mapVal _ ?_) (h1 p (by simp)) (by simpa using h2 p (by simp))) h1' h2'
      intro s hs
      exact ⟨_, rfl, fun v hv => hs v (mem_of_filter hv)⟩

/-- The instruction creates only locations in `UA` and labels in `UV`. -/
def CInst.Within (UA : List Allocation) (UV : List VReg) (ci : CInst) : Prop :=
  (∀ a ∈ ci.locs, a ∈ UA) ∧ ∀ v ∈ ci.labels, v ∈ UV

theorem update_wf {S : CState} {ci : CInst} (h : StWf UA UV S) (hw : ci.Within UA UV) :
    ∃ m', update? S ci = some (.allocs m') ∧ MapWf UA UV m' := by
  have hd := h.defined
  cases ci with
  | move into from_ =>
    unfold update?
    simp only
    cases hg : S.defined.get from_ with
    | none => exact ⟨_, rfl, hd⟩
    | some v =>
      obtain ⟨_, s, rfl, hs⟩ := hd.get hg
      exact ⟨_, rfl, hd.put (hw.1 into (by simp [CInst.locs])) hs⟩
  | pmove moves =>
    refine ⟨_, rfl, hd.mapVal _ ?_⟩
    intro s hs
    refine ⟨_, rfl, ?_⟩
    intro v hv
    rcases List.mem_append.mp hv with h | h
    · exact hs v (mem_of_filter h)
    · obtain ⟨x, _, hx⟩ := List.mem_flatMap.mp h
      obtain ⟨mv, hmv, rfl⟩ := List.mem_map.mp hx
      exact hw.2 _ (List.mem_map_of_mem (mem_of_filter hmv))
  | op i ops as cl =>
    obtain ⟨m', e1, e2⟩ := applyDefs_wf (ops.zip as) hd
      (fun p hp => hw.1 _ (List.of_mem_zip hp).2)
      (fun p hp => hw.2 _ (List.mem_map_of_mem (List.of_mem_zip hp).1))
    refine ⟨cl.foldl (fun m c => m.del (.reg c)) m', by simp [update?, e1], ?_⟩
    clear e1 hw
    induction cl generalizing m' with
    | nil => exact e2
    | cons c cl ih => exact ih _ (e2.del _)

theorem updates_wf {S : CState} (cis : List CInst) (h : StWf UA UV S) (hw : ∀ ci ∈ cis, ci.Within UA UV) :
    ∃ S', updates? S cis = some S' ∧ StWf UA UV S' := by
  induction cis generalizing S with
  | nil => exact ⟨S, rfl, h⟩
  | cons ci cis ih =>
    obtain ⟨m', e1, e2⟩ := update_wf h (hw ci (by simp))
    unfold updates?
    rw [e1]
    exact ih (S := .allocs m') e2 (fun c hc => hw c (List.mem_cons_of_mem _ hc))

/-! ### Order and measure -/

/-- `S` claims no more than `T`; `top` is greatest. -/
def Le (S T : CState) : Prop := T = .top ∨ ((∃ m, S = .allocs m) ∧ ∀ a v, Claims S a v → Claims T a v)

theorem CVal.meet_vregs (s t : List VReg) : CVal.meet (.vregs s) (.vregs t) = .vregs (s.filter (· ∈ t)) := rfl

theorem meet_claims {S T : CState} (hS : StWf UA UV S) (hT : StWf UA UV T) {a : Allocation} {v : VReg}
    (h : Claims (S.meet T) a v) : (S = .top ∨ Claims S a v) ∧ (T = .top ∨ Claims T a v) := by
  cases S with
  | top => cases T <;> simp [CState.meet] at h <;> simp [h]
  | allocs m =>
    cases T with
    | top => simp [CState.meet] at h; simp [h]
    | allocs n =>
      obtain ⟨s, hs, hv⟩ := h
      simp only [CState.meet, CState.get] at hs
      rw [CMap.get_merge] at hs
      split at hs
      · next x y hx hy =>
        obtain ⟨_, s1, rfl, _⟩ := MapWf.get hS hx
        obtain ⟨_, s2, rfl, _⟩ := MapWf.get hT hy
        simp [CVal.meet] at hs
        subst hs
        simp at hv
        exact ⟨.inr ⟨s1, hx, hv.1⟩, .inr ⟨s2, hy, hv.2⟩⟩
      · simp at hs

theorem same_claims {S T : CState} (h : S.same T = true) {a : Allocation} {v : VReg} (hc : Claims T a v) :
    Claims S a v := by
  cases S with
  | top => cases T <;> simp [CState.same] at h; obtain ⟨s, hs, _⟩ := hc; simp [CState.get] at hs
  | allocs m =>
    cases T with
    | top => simp [CState.same] at h
    | allocs n =>
      obtain ⟨s, hs, hv⟩ := hc
      simp only [CState.same, CMap.same, Bool.and_eq_true, List.all_eq_true] at h
      simp only [CState.get] at hs
      have h2 := h.2 _ (CMap.get_mem hs)
      simp only at h2
      obtain ⟨w, hw⟩ := Option.isSome_iff_exists.mp h2
      have h1 := h.1 _ (CMap.get_mem hw)
      simp only [hs] at h1
      cases w with
      | univ => simp [CVal.same] at h1
      | vregs t =>
        simp only [CVal.same, Bool.and_eq_true, List.all_eq_true, decide_eq_true_eq] at h1
        exact ⟨t, hw, h1.2 v hv⟩

theorem le_meet_left {S T : CState} (hS : StWf UA UV S) (hT : StWf UA UV T) : Le (S.meet T) S := by
  cases S with
  | top => exact .inl rfl
  | allocs m =>
    refine .inr ⟨?_, ?_⟩
    · cases T <;> simp [CState.meet]
    · intro a v h
      rcases (meet_claims hS hT h).1 with h | h
      · simp at h
      · exact h

theorem le_meet_right {S T : CState} (hS : StWf UA UV S) (hT : StWf UA UV T) : Le (S.meet T) T := by
  cases T with
  | top => exact .inl rfl
  | allocs m =>
    refine .inr ⟨?_, ?_⟩
    · cases S <;> simp [CState.meet]
    · intro a v h
      rcases (meet_claims hS hT h).2 with h | h
      · simp at h
      · exact h

theorem le_of_same_meet {S T : CState} (hS : StWf UA UV S) (hT : StWf UA UV T)
    (h : (S.meet T).same T = true) : Le T S := by
  cases S with
  | top => exact .inl rfl
  | allocs m =>
    cases T with
    | top => simp [CState.meet, CState.same] at h
    | allocs n =>
      refine .inr ⟨⟨n, rfl⟩, ?_⟩
      intro a v hc
      rcases (meet_claims hS hT (same_claims h hc)).1 with h | h
      · simp at h
      · exact h

theorem Le.trans {S T R : CState} (h1 : Le S T) (h2 : Le T R) : Le S R := by
  rcases h2 with h2 | ⟨⟨m, hm⟩, h2⟩
  · exact .inl h2
  · rcases h1 with h1 | ⟨h0, h1⟩
    · rw [h1] at hm; simp at hm
    · exact .inr ⟨h0, fun a v h => h2 a v (h1 a v h)⟩

/-- Weight of one location. -/
def weight (UV : List VReg) : Option CVal → Nat
  | some (.vregs s) => 1 + UV.countP (· ∈ s)
  | _ => 0

/-- Height left below a state. -/
def mu (UA : List Allocation) (UV : List VReg) : CState → Nat
  | .top => UA.length * (UV.length + 1) + 1
  | .allocs m => (UA.map (fun a => weight UV (m.get a))).sum

theorem weight_le (UV : List VReg) (x : Option CVal) : weight UV x ≤ UV.length + 1 := by
  unfold weight
  split
  · next s => have := List.countP_le_length (p := (· ∈ s)) (l := UV); simp at this ⊢; omega
  · omega

theorem sum_le_mul (l : List Allocation) (g : Allocation → Nat) (k : Nat) (h : ∀ a, g a ≤ k) :
    (l.map g).sum ≤ l.length * k := by
  induction l with
  | nil => simp
  | cons a l ih => simp only [List.map_cons, List.sum_cons, List.length_cons, Nat.add_mul]; have := h a; omega

theorem sum_mono (l : List Allocation) (g h : Allocation → Nat) (hle : ∀ a, g a ≤ h a) :
    (l.map g).sum ≤ (l.map h).sum := by
  induction l with
  | nil => simp
  | cons a l ih => simp only [List.map_cons, List.sum_cons]; have := hle a; omega

theorem sum_lt (l : List Allocation) (g h : Allocation → Nat) (hle : ∀ a, g a ≤ h a) {b : Allocation} (hb : b ∈ l)
    (hlt : g b < h b) : (l.map g).sum < (l.map h).sum := by
  induction l with
  | nil => simp at hb
  | cons a l ih =>
    simp only [List.map_cons, List.sum_cons]
    rcases List.mem_cons.mp hb with rfl | hb
    · have := sum_mono l g h hle; omega
    · have := ih hb; have := hle a; omega

theorem countP_mono (l : List VReg) (p q : VReg → Bool) (h : ∀ v, p v = true → q v = true) :
    l.countP p ≤ l.countP q := List.countP_mono_left (fun x _ => h x)

theorem countP_lt (l : List VReg) (p q : VReg → Bool) (h : ∀ v, p v = true → q v = true) {x : VReg}
    (hx : x ∈ l) (hp : p x = false) (hq : q x = true) : l.countP p < l.countP q := by
  induction l with
  | nil => simp at hx
  | cons a l ih =>
    rw [List.countP_cons, List.countP_cons]
    rcases List.mem_cons.mp hx with rfl | hx
    · have := countP_mono l p q h
      simp [hp, hq]; omega
    · have := ih hx
      by_cases ha : p a = true
      · simp [ha, h a ha]; exact this
      · simp at ha; simp [ha]; omega

/-- A changed meet is strictly lower. -/
theorem mu_meet_lt {S T : CState} (hS : StWf UA UV S) (hT : StWf UA UV T)
    (h : (S.meet T).same T = false) : mu UA UV (S.meet T) < mu UA UV T := by
  cases T with
  | top =>
    cases S with
    | top => simp [CState.meet, CState.same] at h
    | allocs m =>
      simp only [CState.meet, mu]
      have := sum_le_mul UA (fun a => weight UV (m.get a)) (UV.length + 1) (fun a => weight_le UV _)
      omega
  | allocs n =>
    cases S with
    | top =>
      exfalso
      simp only [CState.meet, CState.same] at h
      have : CMap.same n n = true := by
        simp only [CMap.same, Bool.and_eq_true, List.all_eq_true]
        refine ⟨?_, ?_⟩
        · intro p hp
          rw [CMap.get_of_mem hT.1 hp]
          cases p.2 <;> simp [CVal.same]
        · intro p hp
          rw [CMap.get_of_mem hT.1 hp]; rfl
      rw [this] at h; simp at h
    | allocs m =>
      simp only [CState.meet, mu]
      have hle : ∀ a, weight UV ((m.merge n).get a) ≤ weight UV (n.get a) := by
        intro a
        rw [CMap.get_merge]
        cases hm : m.get a with
        | none => simp [weight]
        | some x =>
          cases hn : n.get a with
          | none => simp [weight]
          | some y =>
            obtain ⟨_, s1, rfl, _⟩ := MapWf.get hS hm
            obtain ⟨_, s2, rfl, _⟩ := MapWf.get hT hn
            simp only [CVal.meet, weight]
            have := countP_mono UV (fun v => decide (v ∈ s1.filter (· ∈ s2))) (fun v => decide (v ∈ s2))
              (by intro v hv; simp at hv ⊢; exact hv.2)
            omega
      -- find a location that differs
      have hdiff : ∃ a ∈ UA, weight UV ((m.merge n).get a) < weight UV (n.get a) := by
        apply Classical.byContradiction
        intro hno
        have heq : ∀ a ∈ UA, weight UV ((m.merge n).get a) = weight UV (n.get a) := by
          intro a ha
          have h1 := hle a
          have h2 : ¬ weight UV ((m.merge n).get a) < weight UV (n.get a) := fun hl => hno ⟨a, ha, hl⟩
          omega
        have hsame : CMap.same (m.merge n) n = true := by
          simp only [CMap.same, Bool.and_eq_true, List.all_eq_true]
          have key : ∀ a s2, n.get a = some (.vregs s2) → ∃ s1, m.get a = some (.vregs s1) ∧
              ∀ v ∈ s2, v ∈ s1 := by
            intro a s2 hn
            obtain ⟨ha, s2', hs2, hsub⟩ := MapWf.get hT hn
            simp at hs2; subst hs2
            have hw := heq a ha
            rw [CMap.get_merge, hn] at hw
            cases hm : m.get a with
            | none => rw [hm] at hw; simp [weight] at hw; omega
            | some x =>
              obtain ⟨_, s1, rfl, _⟩ := MapWf.get hS hm
              rw [hm] at hw
              simp only [CVal.meet, weight] at hw
              refine ⟨s1, rfl, ?_⟩
              intro v hv
              apply Classical.byContradiction
              intro hv1
              have := countP_lt UV (fun v => decide (v ∈ s1.filter (· ∈ s2))) (fun v => decide (v ∈ s2))
                (by intro v hv; simp at hv ⊢; exact hv.2) (hsub v hv) (by simp [hv1]) (by simp [hv])
              omega
          refine ⟨?_, ?_⟩
          · intro p hp
            have hwf := (MapWf.merge hS hT)
            have hg := CMap.get_of_mem hwf.1 hp
            rw [CMap.get_merge] at hg
            cases hm : m.get p.1 with
            | none => rw [hm] at hg; simp at hg
            | some x =>
              cases hn : n.get p.1 with
              | none => rw [hm, hn] at hg; simp at hg
              | some y =>
                obtain ⟨_, s1, rfl, _⟩ := MapWf.get hS hm
                obtain ⟨_, s2, rfl, _⟩ := MapWf.get hT hn
                rw [hm, hn] at hg
                simp only [Option.some.injEq] at hg
                rw [← hg]
                obtain ⟨s1', e, hsub⟩ := key p.1 s2 hn
                rw [hm] at e; simp at e; subst e
                simp only [CVal.meet, CVal.same, Bool.and_eq_true, List.all_eq_true, decide_eq_true_eq]
                refine ⟨?_, ?_⟩
                · intro v hv; simp at hv; exact hv.2
                · intro v hv; simp [hv, hsub v hv]
          · intro p hp
            have hn := CMap.get_of_mem hT.1 hp
            obtain ⟨_, s2, hs2, _⟩ := MapWf.get hT hn
            rw [hs2] at hn
            obtain ⟨s1, e, _⟩ := key p.1 s2 hn
            rw [CMap.get_merge, e, hn]; rfl
        simp only [CState.meet, CState.same] at h
        rw [hsame] at h; simp at h
      obtain ⟨a, ha, hlt⟩ := hdiff
      exact sum_lt UA _ _ hle ha hlt

end Regalloc.Checker
