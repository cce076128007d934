import Verif.CMTool.MergeModel
/-! Helper lemmas for `CMergeBookKeeper`. -/
namespace Verif.CMTool
open Verif
namespace BK
open Exec

/-- cell of the prohibition table (row `a`, offset `j`), `false` when absent -/
def cell (s : BK) (a j : Nat) : Bool := ((s.table[a]?).getD [])[j]?.getD false

/-- the table has the triangular shape of `Reset(n)` -/
def Shape (n : Nat) (s : BK) : Prop :=
  s.table.length = n ∧ ∀ a (h : a < s.table.length), (s.table[a]).length = n - a

theorem tabGet_ok {n : Nat} {s : BK} (h : Shape n s) {i j : Nat} (hi : i < n) (hj : j < n - i) :
    tabGet i j s = (.ok (cell s i j), s) := by
  obtain ⟨h1, h2⟩ := h
  have hi' : i < s.table.length := by omega
  have hj' : j < (s.table[i]).length := by rw [h2 i hi']; exact hj
  simp [tabGet, cell, List.getElem?_eq_getElem hi', List.getElem?_eq_getElem hj']

theorem tabSet_ok {n : Nat} {s : BK} (h : Shape n s) {i j : Nat} (b : Bool) (hi : i < n) (hj : j < n - i) :
    ∃ s', tabSet i j b s = (.ok (), s') ∧ Shape n s' ∧ s'.labels = s.labels ∧ s'.cnt = s.cnt ∧
      ∀ a c, cell s' a c = if a = i ∧ c = j then b else cell s a c := by
  obtain ⟨h1, h2⟩ := h
  have hi' : i < s.table.length := by omega
  have hj' : j < (s.table[i]).length := by rw [h2 i hi']; exact hj
  refine ⟨{ s with table := s.table.set i (s.table[i].set j b) }, ?_, ⟨?_, ?_⟩, rfl, rfl, ?_⟩
  · simp [tabSet, List.getElem?_eq_getElem hi', hj']
  · simpa using h1
  · intro a ha
    have ha' : a < s.table.length := by simpa using ha
    by_cases hai : a = i
    · subst hai; simp [h2 a ha']
    · simp [List.getElem_set, Ne.symm hai, h2 a ha']
  · intro a c
    unfold cell
    by_cases hai : a = i
    · subst hai
      by_cases hcj : c = j
      · subst hcj; simp [hi', hj']
      · simp [hi', hcj, List.getElem?_set, Ne.symm hcj]
    · simp [hai, List.getElem?_set, Ne.symm hai]

theorem rowSize_ok {n : Nat} {s : BK} (h : Shape n s) {i : Nat} (hi : i < n) :
    rowSize i s = (.ok (n - i), s) := by
  obtain ⟨h1, h2⟩ := h
  have hi' : i < s.table.length := by omega
  simp [rowSize, List.getElem?_eq_getElem hi', h2 i hi']

theorem shape_reset (n : Nat) : Shape n (reset n) := by
  refine ⟨by simp [reset], ?_⟩
  intro a ha
  simp [reset]

theorem cell_reset (n a j : Nat) : cell (reset n) a j = false := by
  unfold cell reset
  by_cases ha : a < n
  · simp [ha, List.getElem?_replicate]; split <;> rfl
  · simp [ha, List.getElem?_eq_none]

/-- Row `a` of the table after merging output clusters `o1 < o2`, from the cells before. -/
def newCell (c : Nat → Nat → Bool) (o1 o2 a j : Nat) : Bool :=
  if a < o1 then
    if j < o2 - a then (if j = o1 - a then c a j || c a (o2 - a) else c a j) else c a (j + 1)
  else if a = o1 then
    if j + o1 < o2 then c o1 j || c (j + o1) (o2 - (j + o1))
    else c o1 (j + 1) || c o2 (j + 1 + o1 - o2)
  else if a < o2 then
    if j < o2 - a then c a j else c a (j + 1)
  else c (a + 1) j

/-- Progress of the table update: rows `< k` are final (in the active region), the others untouched. -/
def Upto (n cnt : Nat) (L : List Nat) (c : Nat → Nat → Bool) (o1 o2 k : Nat) (s : BK) : Prop :=
  Shape n s ∧ s.labels = L ∧ s.cnt = cnt ∧
  (∀ a j, a < k → 1 ≤ j → a + j < cnt - 1 → cell s a j = newCell c o1 o2 a j) ∧
  (∀ a j, k ≤ a → cell s a j = c a j)

/-- state of the table in which only row `r` has changed, to `f` -/
def RowIs (n cnt : Nat) (L : List Nat) (base : Nat → Nat → Bool) (r : Nat) (f : Nat → Bool) (s : BK) : Prop :=
  Shape n s ∧ s.labels = L ∧ s.cnt = cnt ∧ ∀ a j, cell s a j = if a = r then f j else base a j

theorem triple_tabGet {P : BK → Prop} {n i j : Nat} (hi : i < n) (hj : j < n - i)
    (hP : ∀ s, P s → Shape n s) :
    Triple P (tabGet i j) (fun b s => P s ∧ b = cell s i j) := by
  intro s hs
  exact ⟨_, s, tabGet_ok (hP s hs) hi hj, hs, rfl⟩

theorem triple_tabSet_row {n cnt : Nat} {L : List Nat} {base : Nat → Nat → Bool} {r : Nat} {f : Nat → Bool}
    {j : Nat} {b : Bool} (hr : r < n) (hj : j < n - r) :
    Triple (RowIs n cnt L base r f) (tabSet r j b)
      (fun _ => RowIs n cnt L base r (fun k => if k = j then b else f k)) := by
  intro s ⟨h1, h2, h3, h4⟩
  obtain ⟨s', e, g1, g2, g3, g4⟩ := tabSet_ok h1 b hr hj
  refine ⟨(), s', e, g1, g2.trans h2, g3.trans h3, ?_⟩
  intro a k
  rw [g4, h4]
  by_cases ha : a = r <;> by_cases hk : k = j <;> simp [ha, hk]

theorem triple_get {P : BK → Prop} : Triple P (Exec.get) (fun s0 s => P s ∧ s0 = s) :=
  fun s hs => ⟨s, s, rfl, hs, rfl⟩

/-- `shiftRow` -/
theorem triple_shiftRow {n cnt : Nat} {L : List Nat} {base : Nat → Nat → Bool} {r : Nat} {f : Nat → Bool}
    {start : Nat} (hr : r < cnt) (hcn : cnt ≤ n) (hst : start + r < cnt) :
    Triple (RowIs n cnt L base r f) (shiftRow r start)
      (fun _ => RowIs n cnt L base r
        (fun k => if k = cnt - r - 1 then false
          else if start ≤ k ∧ k < cnt - r - 1 then f (k + 1) else f k)) := by
  unfold shiftRow
  refine Triple.bind triple_get (fun s0 => ?_)
  intro s ⟨hs, e0⟩
  have hcnt : s0.cnt = cnt := by rw [e0]; exact hs.2.2.1
  revert s
  intro s hs e0
  rw [hcnt]
  have key : Triple (RowIs n cnt L base r f)
      (do
        Exec.forRange start (cnt - r - 1) (fun k => do
          let b ← tabGet r (k + 1)
          tabSet r k b)
        tabSet r (cnt - r - 1) false)
      (fun _ => RowIs n cnt L base r
        (fun k => if k = cnt - r - 1 then false
          else if start ≤ k ∧ k < cnt - r - 1 then f (k + 1) else f k)) := by
    refine Triple.bind (R := fun _ => RowIs n cnt L base r
        (fun k => if start ≤ k ∧ k < cnt - r - 1 then f (k + 1) else f k)) ?_ ?_
    · have := Triple.forRange (I := fun m => RowIs n cnt L base r
          (fun k => if start ≤ k ∧ k < m then f (k + 1) else f k)) (lo := start) (hi := cnt - r - 1)
          (body := fun k => do
            let b ← tabGet r (k + 1)
            tabSet r k b) (by omega) ?_
      · refine this.conseq ?_ (fun _ _ h => h)
        intro s h
        refine ⟨h.1, h.2.1, h.2.2.1, ?_⟩
        intro a j
        rw [h.2.2.2]
        by_cases ha : a = r
        · rw [if_pos ha, if_pos ha]; beta_reduce; rw [if_neg (by omega)]
        · rw [if_neg ha, if_neg ha]
      · intro k hk1 hk2
        refine Triple.bind (triple_tabGet (n := n) (by omega) (by omega) (fun s h => h.1)) (fun b => ?_)
        intro s ⟨hs, hb⟩
        have hb' : b = f (k + 1) := by
          rw [hb, hs.2.2.2, if_pos rfl]; beta_reduce; rw [if_neg (by omega)]
        obtain ⟨u, s', e, h⟩ := triple_tabSet_row (b := b) (j := k) (by omega) (by omega) s hs
        refine ⟨u, s', e, h.1, h.2.1, h.2.2.1, ?_⟩
        intro a j
        rw [h.2.2.2]
        by_cases ha : a = r
        · rw [if_pos ha, if_pos ha]; beta_reduce
          by_cases hj : j = k
          · subst hj; rw [if_pos rfl, if_pos (by omega), hb']
          · rw [if_neg hj]
            by_cases h5 : start ≤ j ∧ j < k
            · rw [if_pos h5, if_pos (by omega)]
            · rw [if_neg h5, if_neg (by omega)]
        · rw [if_neg ha, if_neg ha]
    · intro _
      exact triple_tabSet_row (by omega) (by omega)
  exact key s hs

/-- Converting a state in which all rows from `r` on are untouched to the row-local view and back. -/
theorem upto_step {n cnt : Nat} {L : List Nat} {c : Nat → Nat → Bool} {o1 o2 r : Nat} {m : Exec BK Unit}
    {g : Nat → Bool}
    (h : ∀ base : Nat → Nat → Bool, (∀ a j, r ≤ a → base a j = c a j) →
      Triple (RowIs n cnt L base r (c r)) m (fun _ => RowIs n cnt L base r g))
    (hg : ∀ j, 1 ≤ j → r + j < cnt - 1 → g j = newCell c o1 o2 r j) :
    Triple (Upto n cnt L c o1 o2 r) m (fun _ => Upto n cnt L c o1 o2 (r + 1)) := by
  intro s ⟨h1, h2, h3, h4, h5⟩
  obtain ⟨u, s', e, q⟩ := h (cell s) h5 s ⟨h1, h2, h3, by
    intro a j; by_cases ha : a = r
    · subst ha; rw [if_pos rfl]; exact h5 _ _ (Nat.le_refl _)
    · rw [if_neg ha]⟩
  refine ⟨u, s', e, q.1, q.2.1, q.2.2.1, ?_, ?_⟩
  · intro a j ha hj haj
    rw [q.2.2.2]
    by_cases har : a = r
    · subst har; rw [if_pos rfl]; exact hg j hj haj
    · rw [if_neg har]; exact h4 a j (by omega) hj haj
  · intro a j ha
    rw [q.2.2.2, if_neg (by omega)]; exact h5 a j (by omega)

theorem triple_phase1 {n cnt : Nat} {L : List Nat} {c : Nat → Nat → Bool} {o1 o2 r : Nat}
    (hcn : cnt ≤ n) (h12 : o1 < o2) (h2c : o2 < cnt) (hr : r < o1) :
    Triple (Upto n cnt L c o1 o2 r) (phase1 o1 o2 r) (fun _ => Upto n cnt L c o1 o2 (r + 1)) := by
  refine upto_step (g := fun k => if k = cnt - r - 1 then false
      else if o2 - r ≤ k ∧ k < cnt - r - 1 then
        (fun k => if k = o1 - r then c r (o1 - r) || c r (o2 - r) else c r k) (k + 1)
      else (fun k => if k = o1 - r then c r (o1 - r) || c r (o2 - r) else c r k) k) ?_ ?_
  · intro base hb
    unfold phase1
    refine Triple.bind (triple_tabGet (n := n) (by omega) (by omega) (fun s h => h.1)) (fun x => ?_)
    refine Triple.bind (triple_tabGet (n := n) (by omega) (by omega) (fun s h => h.1.1)) (fun y => ?_)
    refine Triple.bind (R := fun _ => RowIs n cnt L base r
      (fun k => if k = o1 - r then c r (o1 - r) || c r (o2 - r) else c r k)) ?_ (fun _ => ?_)
    · intro s ⟨⟨hs, hx⟩, hy⟩
      rw [hs.2.2.2, if_pos rfl] at hx hy
      rw [hx, hy]
      exact triple_tabSet_row (by omega) (by omega) s hs
    · exact triple_shiftRow (by omega) hcn (by omega)
  · intro j hj hrj
    simp only [newCell, if_pos hr]
    rw [if_neg (by omega)]
    by_cases h : j < o2 - r
    · rw [if_neg (by omega), if_pos h]
      by_cases h' : j = o1 - r
      · simp [h']
      · simp [h']
    · rw [if_pos (by omega), if_neg h, if_neg (by omega)]

theorem triple_phase2 {n cnt : Nat} {L : List Nat} {c : Nat → Nat → Bool} {o1 o2 : Nat}
    (hcn : cnt ≤ n) (h12 : o1 < o2) (h2c : o2 < cnt) :
    Triple (Upto n cnt L c o1 o2 o1)
      (do
        Exec.forRange 1 (cnt - o1 - 1) (phase2 o1 o2)
        tabSet o1 (cnt - o1 - 1) false)
      (fun _ => Upto n cnt L c o1 o2 (o1 + 1)) := by
  refine upto_step (g := fun k => if k = cnt - o1 - 1 then false
      else if 1 ≤ k ∧ k < cnt - o1 - 1 then newCell c o1 o2 o1 k else c o1 k) ?_ ?_
  · intro base hb
    refine Triple.bind (R := fun _ => RowIs n cnt L base o1
      (fun k => if 1 ≤ k ∧ k < cnt - o1 - 1 then newCell c o1 o2 o1 k else c o1 k)) ?_
      (fun _ => triple_tabSet_row (by omega) (by omega))
    have := Triple.forRange (I := fun m => RowIs n cnt L base o1
      (fun k => if 1 ≤ k ∧ k < m then newCell c o1 o2 o1 k else c o1 k)) (lo := 1)
      (hi := cnt - o1 - 1) (body := phase2 o1 o2)
    by_cases hle : 1 ≤ cnt - o1 - 1
    · refine (this hle ?_).conseq ?_ (fun _ _ h => h)
      · intro k hk1 hk2
        unfold phase2
        by_cases hlt : k + o1 < o2
        · rw [if_pos hlt]
          refine Triple.bind (triple_tabGet (n := n) (by omega) (by omega) (fun s h => h.1)) (fun x => ?_)
          refine Triple.bind (triple_tabGet (n := n) (by omega) (by omega) (fun s h => h.1.1)) (fun y => ?_)
          intro s ⟨⟨hs, hx⟩, hy⟩
          rw [hs.2.2.2, if_pos rfl] at hx; beta_reduce at hx; rw [if_neg (by omega)] at hx
          rw [hs.2.2.2, if_neg (by omega), hb _ _ (by omega)] at hy
          obtain ⟨u, s', e, h⟩ := triple_tabSet_row (b := x || y) (j := k) (by omega) (by omega) s hs
          refine ⟨u, s', e, h.1, h.2.1, h.2.2.1, ?_⟩
          intro a j
          rw [h.2.2.2]
          by_cases ha : a = o1
          · rw [if_pos ha, if_pos ha]; beta_reduce
            by_cases hj : j = k
            · subst hj; rw [if_pos rfl, if_pos (by omega), hx, hy]; simp [newCell, hlt]
            · rw [if_neg hj]
              by_cases h5 : 1 ≤ j ∧ j < k
              · rw [if_pos h5, if_pos (by omega)]
              · rw [if_neg h5, if_neg (by omega)]
          · rw [if_neg ha, if_neg ha]
        · rw [if_neg hlt]
          refine Triple.bind (triple_tabGet (n := n) (by omega) (by omega) (fun s h => h.1)) (fun x => ?_)
          refine Triple.bind (triple_tabGet (n := n) (by omega) (by omega) (fun s h => h.1.1)) (fun y => ?_)
          intro s ⟨⟨hs, hx⟩, hy⟩
          rw [hs.2.2.2, if_pos rfl] at hx; beta_reduce at hx; rw [if_neg (by omega)] at hx
          rw [hs.2.2.2, if_neg (by omega), hb _ _ (by omega)] at hy
          obtain ⟨u, s', e, h⟩ := triple_tabSet_row (b := x || y) (j := k) (by omega) (by omega) s hs
          refine ⟨u, s', e, h.1, h.2.1, h.2.2.1, ?_⟩
          intro a j
          rw [h.2.2.2]
          by_cases ha : a = o1
          · rw [if_pos ha, if_pos ha]; beta_reduce
            by_cases hj : j = k
            · subst hj; rw [if_pos rfl, if_pos (by omega), hx, hy]; simp [newCell, hlt]
            · rw [if_neg hj]
              by_cases h5 : 1 ≤ j ∧ j < k
              · rw [if_pos h5, if_pos (by omega)]
              · rw [if_neg h5, if_neg (by omega)]
          · rw [if_neg ha, if_neg ha]
      · intro s h
        refine ⟨h.1, h.2.1, h.2.2.1, ?_⟩
        intro a j
        rw [h.2.2.2]
        by_cases ha : a = o1
        · rw [if_pos ha, if_pos ha]; beta_reduce; rw [if_neg (by omega)]
        · rw [if_neg ha, if_neg ha]
    · intro s h
      refine ⟨(), s, ?_, h.1, h.2.1, h.2.2.1, ?_⟩
      · rw [Exec.forRange, show cnt - o1 - 1 - 1 = 0 by omega]; rfl
      · intro a j
        rw [h.2.2.2]
        by_cases ha : a = o1
        · rw [if_pos ha, if_pos ha]; beta_reduce; rw [if_neg (by omega)]
        · rw [if_neg ha, if_neg ha]
  · intro j hj hrj
    rw [if_neg (by omega), if_pos (by omega)]

theorem triple_phase3 {n cnt : Nat} {L : List Nat} {c : Nat → Nat → Bool} {o1 o2 r : Nat}
    (hcn : cnt ≤ n) (h1 : o1 < r) (h2 : r < o2) (h2c : o2 < cnt) :
    Triple (Upto n cnt L c o1 o2 r) (shiftRow r (o2 - r)) (fun _ => Upto n cnt L c o1 o2 (r + 1)) := by
  refine upto_step (g := fun k => if k = cnt - r - 1 then false
      else if o2 - r ≤ k ∧ k < cnt - r - 1 then c r (k + 1) else c r k) ?_ ?_
  · intro base hb
    exact triple_shiftRow (by omega) hcn (by omega)
  · intro j hj hrj
    have e1 : ¬ r < o1 := by omega
    have e2 : ¬ r = o1 := by omega
    have e3 : ¬ j = cnt - r - 1 := by omega
    simp only [newCell, e1, e2, e3, h2, if_true, if_false]
    by_cases h : j < o2 - r
    · rw [if_neg (by omega), if_pos h]
    · rw [if_pos (by omega), if_neg h]

theorem triple_phase4 {n cnt : Nat} {L : List Nat} {c : Nat → Nat → Bool} {o1 o2 r : Nat}
    (hcn : cnt ≤ n) (h12 : o1 < o2) (h1 : o2 ≤ r) (h2 : r + 1 < cnt) :
    Triple (Upto n cnt L c o1 o2 r) (phase4 r) (fun _ => Upto n cnt L c o1 o2 (r + 1)) := by
  refine upto_step (g := fun k => if k < n - r then (if k < n - (r + 1) then c (r + 1) k else false)
    else c r k) ?_ ?_
  · intro base hb
    unfold phase4
    intro s hs
    have hsz := rowSize_ok hs.1 (i := r) (by omega)
    have := Triple.forRange (I := fun m => RowIs n cnt L base r
      (fun k => if k < m then (if k < n - (r + 1) then c (r + 1) k else false) else c r k)) (lo := 0)
      (hi := n - r) (body := fun k => do
        let sz' ← rowSize (r + 1)
        if k < sz' then do
          let b ← tabGet (r + 1) k
          tabSet r k b
        else tabSet r k false) (by omega) ?_
    · obtain ⟨u, s', e, q⟩ := this s ⟨hs.1, hs.2.1, hs.2.2.1, by intro a j; rw [hs.2.2.2]; simp⟩
      refine ⟨u, s', ?_, q⟩
      show Exec.bind _ _ s = _
      simp only [Exec.bind, hsz]
      exact e
    · intro k hk1 hk2 s hs
      have hsz' := rowSize_ok hs.1 (i := r + 1) (by omega)
      have fin : ∀ b, b = (if k < n - (r + 1) then c (r + 1) k else false) →
          ∃ a s', tabSet r k b s = (.ok a, s') ∧ 
            RowIs n cnt L base r (fun k' => if k' < k + 1 then
              (if k' < n - (r + 1) then c (r + 1) k' else false) else c r k') s' := by
        intro b hb'
        obtain ⟨u, s', e, h⟩ := triple_tabSet_row (b := b) (j := k) (by omega) (by omega) s hs
        refine ⟨u, s', e, h.1, h.2.1, h.2.2.1, ?_⟩
        intro a j
        rw [h.2.2.2]
        by_cases ha : a = r
        · rw [if_pos ha, if_pos ha]; beta_reduce
          by_cases hj : j = k
          · subst hj; rw [if_pos rfl, if_pos (by omega), hb']
          · rw [if_neg hj]
            by_cases h5 : j < k
            · rw [if_pos h5, if_pos (show j < k + 1 by omega)]
            · rw [if_neg h5, if_neg (show ¬ j < k + 1 by omega)]
        · rw [if_neg ha, if_neg ha]
      by_cases hk : k < n - (r + 1)
      · have hg := tabGet_ok hs.1 (i := r + 1) (j := k) (by omega) hk
        obtain ⟨u, s', e, q⟩ := fin (cell s (r + 1) k) (by
          rw [if_pos hk, hs.2.2.2, if_neg (by omega), hb _ _ (by omega)])
        refine ⟨u, s', ?_, q⟩
        show Exec.bind _ _ s = _
        simp only [Exec.bind, hsz']
        simp only [hk, if_true]
        show Exec.bind _ _ s = _
        simp only [Exec.bind, hg]
        exact e
      · obtain ⟨u, s', e, q⟩ := fin false (by rw [if_neg hk])
        refine ⟨u, s', ?_, q⟩
        show Exec.bind _ _ s = _
        simp only [Exec.bind, hsz']
        simp only [hk, if_false]
        exact e
  · intro j hj hrj
    simp only [newCell]
    rw [if_pos (by omega), if_pos (by omega), if_neg (by omega), if_neg (by omega), if_neg (by omega)]

/-- Effect of the mutating part of `Merge`. -/
theorem mergeBody_spec {n : Nat} {s : BK} {o1 o2 : Nat} (hs : Shape n s) (hcn : s.cnt ≤ n)
    (h12 : o1 < o2) (h2c : o2 < s.cnt) :
    ∃ s', mergeBody o1 o2 s = (.ok (), s') ∧ Shape n s' ∧
      s'.labels = s.labels.map (relabel o1 o2) ∧ s'.cnt = s.cnt - 1 ∧
      ∀ a j, 1 ≤ j → a + j < s.cnt - 1 → cell s' a j = newCell (cell s) o1 o2 a j := by
  generalize hcnt : s.cnt = cnt at *
  let s1 : BK := { s with labels := s.labels.map (relabel o1 o2) }
  have h0 : Upto n cnt s1.labels (cell s) o1 o2 0 s1 :=
    ⟨hs, rfl, hcnt, by intro a j h; omega, by intro a j _; rfl⟩
  have key : Triple (Upto n cnt s1.labels (cell s) o1 o2 0)
      (do
        Exec.forRange 0 o1 (phase1 o1 o2)
        (do
          Exec.forRange 1 (cnt - o1 - 1) (phase2 o1 o2)
          tabSet o1 (cnt - o1 - 1) false)
        Exec.forRange (o1 + 1) o2 (fun index => shiftRow index (o2 - index))
        Exec.forRange o2 (cnt - 1) phase4)
      (fun _ => Upto n cnt s1.labels (cell s) o1 o2 (cnt - 1)) := by
    refine Triple.bind (Triple.forRange (I := Upto n cnt s1.labels (cell s) o1 o2) (Nat.zero_le _)
      (fun k _ hk => triple_phase1 hcn h12 h2c hk)) (fun _ => ?_)
    refine Triple.bind (triple_phase2 hcn h12 h2c) (fun _ => ?_)
    refine Triple.bind (Triple.forRange (I := Upto n cnt s1.labels (cell s) o1 o2) (by omega)
      (fun k hk1 hk => triple_phase3 hcn (by omega) hk h2c)) (fun _ => ?_)
    exact Triple.forRange (I := Upto n cnt s1.labels (cell s) o1 o2) (by omega)
      (fun k hk1 hk => triple_phase4 hcn h12 hk1 (by omega))
  obtain ⟨u, s2, e, q⟩ := key s1 h0
  refine ⟨{ s2 with cnt := s2.cnt - 1 }, ?_, q.1, q.2.1, ?_, ?_⟩
  · have e' : mergeBody o1 o2 s = ((do
        Exec.forRange 0 o1 (phase1 o1 o2)
        (do
          Exec.forRange 1 (cnt - o1 - 1) (phase2 o1 o2)
          tabSet o1 (cnt - o1 - 1) false)
        Exec.forRange (o1 + 1) o2 (fun index => shiftRow index (o2 - index))
        Exec.forRange o2 (cnt - 1) phase4) >>= fun _ =>
          Exec.modify (fun s : BK => { s with cnt := s.cnt - 1 })) s1 := by
      unfold mergeBody
      show Exec.bind (Exec.modify _) _ s = _
      simp only [Exec.bind, Exec.modify, Exec.get, Bind.bind, s1, hcnt]
      repeat' split
      all_goals rfl
    rw [e']
    show Exec.bind _ _ s1 = _
    simp only [Exec.bind, e]
    rfl
  · show s2.cnt - 1 = _
    rw [q.2.2.1]
  · intro a j hj haj
    exact q.2.2.2.1 a j (by omega) hj haj

end BK
end Verif.CMTool
