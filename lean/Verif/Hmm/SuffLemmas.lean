import Verif.Hmm.Suff
/-! Proofs about the sufficient statistics (helper lemmas; the claims are in `PropsSuff`). -/
namespace Thot.Hmm

open Thot Thot.Sum

variable {γ G X : Type} [DecidableEq γ] [DecidableEq G] [DecidableEq X]

/-! ### Accumulation -/

/-- Accumulated contributions of a parameter. -/
def auxAt (aux : Aux G X) (key : G × X) : Rat × Rat := (AMap.lk aux key).getD (0, 0)

theorem fillAux_at (aux : Aux G X) (key key' : G × X) (wc wn : Rat) :
    auxAt (fillAux aux key wc wn) key' =
      if key' = key then ((auxAt aux key').1 + wc, (auxAt aux key').2 + wn) else auxAt aux key' := by
  unfold fillAux auxAt
  cases h : AMap.lk aux key with
  | none =>
    dsimp only
    rw [AMap.lk_put]
    by_cases hk : key' = key
    · subst hk; simp [h]; grind
    · simp [hk]
  | some p =>
    obtain ⟨a, b⟩ := p
    dsimp only
    rw [AMap.lk_put]
    by_cases hk : key' = key
    · subst hk; simp [h]
    · simp [hk]

theorem fillAux_distinct {aux : Aux G X} (h : AMap.Distinct aux) (key : G × X) (wc wn : Rat) :
    AMap.Distinct (fillAux aux key wc wn) := by
  unfold fillAux
  split <;> exact AMap.distinct_put h _ _

theorem fillAux_keys {aux : Aux G X} {key key' : G × X} {wc wn : Rat}
    (h : (AMap.lk (fillAux aux key wc wn) key').isSome) : key' = key ∨ (AMap.lk aux key').isSome := by
  unfold fillAux at h
  split at h <;> (rw [AMap.lk_put] at h; by_cases hk : key' = key; exact Or.inl hk; right; simpa [hk] using h)

/-- The memory forgets nothing: either unrestricted, or of size zero (never holding a value). -/
inductive Plain : Option Nat → Prop
  | unrestricted : Plain none
  | zero : Plain (some 0)

/-- What the memory holds for a cell of sentence pair `n`. -/
def recall (m : Mem γ) (n : Nat) (c : γ) : Option Rat := if m.maxn = some 0 then none else m.ent n c

theorem gatherCells_spec {m : Mem γ} (hp : Plain m.maxn) {np n : Nat} (hnp : m.maxn = none → np = n) (w : Rat)
    (new : γ → Rat) (l : List (γ × (G × X))) (aux : Aux G X) (hn : (l.map Prod.fst).Nodup) :
    let r := l.foldl (gatherCell np w new) (m, aux)
    r.1.maxn = m.maxn ∧
    (∀ n' c', recall r.1 n' c' =
      if m.maxn = none ∧ n' = n ∧ c' ∈ l.map Prod.fst then some (new c') else recall m n' c') ∧
    (∀ key, auxAt r.2 key =
      ((auxAt aux key).1 + sumBy (fun c => if c.2 = key then wcurr w (recall m n c.1) else 0) l,
        (auxAt aux key).2 + sumBy (fun c => if c.2 = key then w * new c.1 else 0) l)) ∧
    (AMap.Distinct aux → AMap.Distinct r.2) ∧
    (∀ key, (AMap.lk r.2 key).isSome → key ∈ l.map Prod.snd ∨ (AMap.lk aux key).isSome) := by
  induction l generalizing m aux with
  | nil =>
    refine ⟨rfl, ?_, ?_, fun h => h, fun key h => Or.inr h⟩
    · intro n' c'; simp
    · intro key; simp only [sumBy_nil, List.foldl_nil]
      have e1 : (auxAt aux key).1 + 0 = (auxAt aux key).1 := by grind
      have e2 : (auxAt aux key).2 + 0 = (auxAt aux key).2 := by grind
      rw [e1, e2]
  | cons c l ih =>
    rw [List.map_cons, List.nodup_cons] at hn
    rw [List.foldl_cons]
    have hm1 : (gatherCell np w new (m, aux) c).1.maxn = m.maxn := by
      unfold gatherCell Mem.setFast; dsimp only; split <;> rfl
    have hrec : ∀ n' c', recall (gatherCell np w new (m, aux) c).1 n' c' =
        if m.maxn = none ∧ n' = n ∧ c' = c.1 then some (new c.1) else recall m n' c' := by
      intro n' c'
      unfold recall
      rw [hm1]
      unfold gatherCell Mem.setFast
      dsimp only
      by_cases h0 : m.maxn = some 0
      · simp [h0]
      · rw [if_neg h0, if_neg h0]
        have hm : m.maxn = none := by
          generalize m.maxn = q at hp h0
          cases hp
          · rfl
          · exact absurd rfl h0
        have := hnp hm
        subst this
        simp only [hm, true_and, upd]
        by_cases hn' : n' = np
        · subst hn'
          by_cases hc : c' = c.1
          · simp [hc]
          · simp [hc]
        · simp [hn']
    have hget : m.getFast np c.1 = recall m n c.1 := by
      unfold Mem.getFast recall
      generalize hq : m.maxn = q at hp
      cases hp with
      | unrestricted => rw [hnp hq]
      | zero => rfl
    obtain ⟨k1, k2, k3, k4, k5⟩ := ih (m := (gatherCell np w new (m, aux) c).1) (by rw [hm1]; exact hp)
      (by rw [hm1]; exact hnp) (gatherCell np w new (m, aux) c).2 hn.2
    refine ⟨by rw [← hm1]; exact k1, ?_, ?_, ?_, ?_⟩
    · intro n' c'
      have := k2 n' c'
      rw [hm1, hrec] at this
      refine this.trans ?_
      by_cases a1 : m.maxn = none
      · by_cases a2 : n' = n
        · by_cases a3 : c' ∈ l.map Prod.fst
          · have : c' ≠ c.1 := fun h => hn.1 (h ▸ a3)
            simp only [a1, a2, a3, true_and, if_true, List.map_cons, List.mem_cons, or_true]
          · simp only [a1, a2, a3, true_and, if_false, List.map_cons, List.mem_cons, or_false]
            by_cases a4 : c' = c.1
            · simp [a4]
            · simp [a4]
        · simp [a2]
      · simp [a1]
    · intro key
      have := k3 key
      refine this.trans ?_
      have e1 : sumBy (fun c' => if c'.2 = key then wcurr w (recall (gatherCell np w new (m, aux) c).1 n c'.1) else 0) l =
          sumBy (fun c' => if c'.2 = key then wcurr w (recall m n c'.1) else 0) l := by
        apply sumBy_congr
        intro c' hc'
        rw [hrec]
        have : c'.1 ≠ c.1 := fun h => hn.1 (h ▸ List.mem_map_of_mem hc')
        simp [this]
      rw [e1, sumBy_cons, sumBy_cons]
      have e2 : auxAt (gatherCell np w new (m, aux) c).2 key =
          if key = c.2 then ((auxAt aux key).1 + wcurr w (recall m n c.1), (auxAt aux key).2 + w * new c.1)
          else auxAt aux key := by
        unfold gatherCell
        dsimp only
        rw [fillAux_at, hget]
      rw [e2]
      by_cases hk : c.2 = key
      · simp only [hk, if_true]
        ext <;> dsimp only <;> grind
      · have hk' : ¬ key = c.2 := fun h => hk h.symm
        simp only [hk, hk', if_false]
        ext <;> dsimp only <;> grind
    · intro hd
      exact k4 (fillAux_distinct hd _ _ _)
    · intro key hkey
      rcases k5 key hkey with h | h
      · left; exact List.mem_cons_of_mem _ h
      · rcases fillAux_keys h with h | h
        · left; rw [h]; exact List.mem_cons_self
        · exact Or.inr h

/-- Old and new contributions of a sentence pair. -/
def oldC (corpus : Nat → Option (Sent γ G X)) (m : Mem γ) (key : G × X) (n : Nat) : Rat :=
  match corpus n with
  | some snt => sumBy (fun c => if c.2 = key then wcurr snt.weight (recall m n c.1) else 0) snt.cells
  | none => 0

def newC (corpus : Nat → Option (Sent γ G X)) (new : Nat → γ → Rat) (key : G × X) (n : Nat) : Rat :=
  match corpus n with
  | some snt => contrib snt (new n) key
  | none => 0

/-- The parameters some processed sentence pair contributes to. -/
def KeyOf (corpus : Nat → Option (Sent γ G X)) (key : G × X) : Prop :=
  ∃ n snt, corpus n = some snt ∧ key ∈ snt.cells.map Prod.snd

/-- No sentence pair has two cells with the same indices. -/
def CellsOk (corpus : Nat → Option (Sent γ G X)) : Prop :=
  ∀ n snt, corpus n = some snt → (snt.cells.map Prod.fst).Nodup

theorem gatherSent_spec {corpus : Nat → Option (Sent γ G X)} (hc : CellsOk corpus) {m : Mem γ} (hp : Plain m.maxn)
    (new : Nat → γ → Rat) (aux : Aux G X) (n : Nat) :
    let r := gatherOne corpus new (m, aux) n
    r.1.maxn = m.maxn ∧
    (∀ n' c', recall r.1 n' c' =
      if m.maxn = none ∧ n' = n ∧ ∃ snt, corpus n = some snt ∧ c' ∈ snt.cells.map Prod.fst then some (new n c')
      else recall m n' c') ∧
    (∀ key, auxAt r.2 key = ((auxAt aux key).1 + oldC corpus m key n, (auxAt aux key).2 + newC corpus new key n)) ∧
    (AMap.Distinct aux → AMap.Distinct r.2) ∧
    (∀ key, (AMap.lk r.2 key).isSome → KeyOf corpus key ∨ (AMap.lk aux key).isSome) := by
  unfold gatherOne
  cases hcn : corpus n with
  | none =>
    dsimp only
    refine ⟨rfl, ?_, ?_, fun h => h, fun key h => Or.inr h⟩
    · intro n' c'; simp
    · intro key
      unfold oldC newC
      rw [hcn]
      ext <;> dsimp only <;> grind
  | some snt =>
    dsimp only
    unfold gatherSent
    have hinit : (m.initEntry n).2 = m ∧ (m.maxn = none → (m.initEntry n).1 = n) := by
      unfold Mem.initEntry
      generalize hq : m.maxn = q at hp
      cases hp with
      | unrestricted => exact ⟨rfl, fun _ => rfl⟩
      | zero => exact ⟨rfl, fun h => by cases h⟩
    obtain ⟨k1, k2, k3, k4, k5⟩ := gatherCells_spec (m := m) hp (np := (m.initEntry n).1) (n := n) hinit.2 snt.weight
      (new n) snt.cells aux (hc n snt hcn)
    dsimp only
    rw [hinit.1]
    refine ⟨k1, ?_, ?_, k4, ?_⟩
    · intro n' c'
      rw [k2]
      simp only [Option.some.injEq, exists_eq_left']
    · intro key
      have e1 : oldC corpus m key n = sumBy (fun c => if c.2 = key then wcurr snt.weight (recall m n c.1) else 0) snt.cells := by
        unfold oldC; rw [hcn]
      have e2 : newC corpus new key n = sumBy (fun c => if c.2 = key then snt.weight * new n c.1 else 0) snt.cells := by
        unfold newC contrib; rw [hcn]
      rw [e1, e2]; exact k3 key
    · intro key h
      rcases k5 key h with h | h
      · exact Or.inl ⟨n, snt, hcn, h⟩
      · exact Or.inr h

theorem gatherList_spec {corpus : Nat → Option (Sent γ G X)} (hc : CellsOk corpus) {m : Mem γ} (hp : Plain m.maxn)
    (new : Nat → γ → Rat) (ns : List Nat) (hns : ns.Nodup) (aux : Aux G X) :
    let r := ns.foldl (gatherOne corpus new) (m, aux)
    r.1.maxn = m.maxn ∧
    (∀ n' c', recall r.1 n' c' =
      if m.maxn = none ∧ n' ∈ ns ∧ ∃ snt, corpus n' = some snt ∧ c' ∈ snt.cells.map Prod.fst then some (new n' c')
      else recall m n' c') ∧
    (∀ key, auxAt r.2 key =
      ((auxAt aux key).1 + sumBy (oldC corpus m key) ns, (auxAt aux key).2 + sumBy (newC corpus new key) ns)) ∧
    (AMap.Distinct aux → AMap.Distinct r.2) ∧
    (∀ key, (AMap.lk r.2 key).isSome → KeyOf corpus key ∨ (AMap.lk aux key).isSome) := by
  induction ns generalizing m aux with
  | nil =>
    refine ⟨rfl, ?_, ?_, fun h => h, fun key h => Or.inr h⟩
    · intro n' c'; simp
    · intro key; simp only [sumBy_nil, List.foldl_nil]
      ext <;> dsimp only <;> grind
  | cons n ns ih =>
    obtain ⟨hn1, hn2⟩ := List.nodup_cons.1 hns
    obtain ⟨a1, a2, a3, a4, a5⟩ := gatherSent_spec hc hp new aux n
    rw [List.foldl_cons]
    obtain ⟨b1, b2, b3, b4, b5⟩ := ih (m := (gatherOne corpus new (m, aux) n).1) (by rw [a1]; exact hp) hn2
      (gatherOne corpus new (m, aux) n).2
    refine ⟨b1.trans a1, ?_, ?_, fun h => b4 (a4 h), ?_⟩
    · intro n' c'
      refine (b2 n' c').trans ?_
      rw [a1, a2]
      by_cases x1 : m.maxn = none
      · by_cases x2 : n' = n
        · subst x2
          simp only [x1, true_and, List.mem_cons_self, hn1, false_and, if_false]
        · simp only [x1, true_and, x2, false_and, if_false, List.mem_cons, false_or]
      · simp [x1]
    · intro key
      have e : sumBy (oldC corpus (gatherOne corpus new (m, aux) n).1 key) ns = sumBy (oldC corpus m key) ns := by
        apply sumBy_congr
        intro n' hn'
        have hne : n' ≠ n := fun h => hn1 (h ▸ hn')
        unfold oldC
        cases corpus n' with
        | none => rfl
        | some snt =>
          dsimp only
          apply sumBy_congr
          intro c _
          rw [a2]; simp [hne]
      refine (b3 key).trans ?_
      rw [e, a3, sumBy_cons, sumBy_cons]
      ext <;> dsimp only <;> grind
    · intro key h
      rcases b5 key h with h | h
      · exact Or.inl h
      · exact a5 key h

/-! ### Update of the tables -/

/-- Sum of the numerators with conditioning part `g`. -/
def denSum (num : List ((G × X) × Rat)) (g : G) : Rat := sumBy (fun e => if e.1.1 = g then e.2 else 0) num

theorem denSum_put (num : List ((G × X) × Rat)) (hd : AMap.Distinct num) (k : G × X) (v : Rat) (g : G) :
    denSum (AMap.put num k v) g = denSum num g + (if k.1 = g then v - (AMap.lk num k).getD 0 else 0) := by
  cases h : AMap.lk num k with
  | none =>
    rw [AMap.put_of_none _ h]
    unfold denSum
    rw [sumBy_append]
    simp only [sumBy_cons, sumBy_nil, Option.getD_none]
    split <;> grind
  | some w =>
    simp only [Option.getD_some]
    induction num with
    | nil => simp [AMap.lk] at h
    | cons e num ih =>
      obtain ⟨ek, ev⟩ := e
      have hd' : AMap.Distinct num ∧ ek ∉ num.map Prod.fst := by
        have := List.nodup_cons.1 (show ((ek :: num.map Prod.fst).Nodup) from hd)
        exact ⟨this.2, this.1⟩
      by_cases hk : ek = k
      · subst hk
        have hw : ev = w := by simpa [AMap.lk] using h
        subst hw
        have hp : AMap.put ((ek, ev) :: num) ek v = (ek, v) :: num := by simp [AMap.put]
        rw [hp]
        unfold denSum
        rw [sumBy_cons, sumBy_cons]
        dsimp only
        split <;> grind
      · have hl : AMap.lk num k = some w := by simpa [AMap.lk, hk] using h
        have hp : AMap.put ((ek, ev) :: num) k v = (ek, ev) :: AMap.put num k v := by simp [AMap.put, hk]
        have := ih hd'.1 hl
        rw [hp]
        unfold denSum at *
        rw [sumBy_cons, sumBy_cons, this]
        grind

/-- Value of a numerator (0 if absent). -/
def numAt (t : Tables G X) (key : G × X) : Rat := (AMap.lk t.num key).getD 0

/-- The denominators are the sums of the numerators. -/
structure TabOk (t : Tables G X) : Prop where
  dist : AMap.Distinct t.num
  den : ∀ g, (AMap.lk t.den g).getD 0 = denSum t.num g
  some : ∀ key, (AMap.lk t.num key).isSome → (AMap.lk t.den key.1).isSome

theorem tabOk_empty : TabOk ({ num := [], den := [] } : Tables G X) :=
  ⟨AMap.distinct_nil, fun _ => rfl, fun key h => by simp [AMap.lk] at h⟩

theorem updateOne_spec {t : Tables G X} (h : TabOk t) (e : (G × X) × (Rat × Rat)) :
    TabOk (updateOne t e) ∧
    (∀ key, numAt (updateOne t e) key = numAt t key + (if key = e.1 then e.2.2 - e.2.1 else 0)) ∧
    (∀ key, (AMap.lk (updateOne t e).num key).isSome → key = e.1 ∨ (AMap.lk t.num key).isSome) ∧
    (∀ key, (AMap.lk t.num key).isSome → (AMap.lk (updateOne t e).num key).isSome) := by
  unfold updateOne newSuffStat
  by_cases hne : e.2.1 ≠ e.2.2
  · rw [if_pos hne]
    dsimp only
    refine ⟨⟨AMap.distinct_put h.dist _ _, ?_, ?_⟩, ?_, ?_, ?_⟩
    · intro g
      dsimp only
      rw [denSum_put _ h.dist, AMap.lk_put, ← h.den g]
      by_cases hg : g = e.1.1
      · subst hg; simp only [if_true, Option.getD_some]; grind
      · have : ¬ e.1.1 = g := fun h => hg h.symm
        simp only [hg, this, if_false]; grind
    · intro key hk
      dsimp only at *
      rw [AMap.lk_put] at hk ⊢
      by_cases hg : key.1 = e.1.1
      · simp [hg]
      · have hk' : ¬ key = e.1 := fun h => hg (h ▸ rfl)
        simp only [hg, hk', if_false] at *
        exact h.some key hk
    · intro key
      unfold numAt
      dsimp only
      rw [AMap.lk_put]
      by_cases hk : key = e.1
      · subst hk; simp only [if_true, Option.getD_some]; grind
      · simp only [hk, if_false]; grind
    · intro key hk
      rw [AMap.lk_put] at hk
      by_cases hk' : key = e.1
      · exact Or.inl hk'
      · right; simpa [hk'] using hk
    · intro key hk
      rw [AMap.lk_put]
      by_cases hk' : key = e.1
      · simp [hk']
      · simpa [hk'] using hk
  · rw [if_neg hne]
    have he : e.2.1 = e.2.2 := Classical.byContradiction hne
    refine ⟨h, ?_, fun key hk => Or.inr hk, fun key hk => hk⟩
    intro key
    rw [he]; split <;> grind

theorem updateAll_spec (aux : Aux G X) (hd : AMap.Distinct aux) {t : Tables G X} (h : TabOk t) :
    TabOk (aux.foldl updateOne t) ∧
    (∀ key, numAt (aux.foldl updateOne t) key = numAt t key - (auxAt aux key).1 + (auxAt aux key).2) ∧
    (∀ key, (AMap.lk (aux.foldl updateOne t).num key).isSome →
      (AMap.lk aux key).isSome ∨ (AMap.lk t.num key).isSome) ∧
    (∀ key, (AMap.lk t.num key).isSome → (AMap.lk (aux.foldl updateOne t).num key).isSome) := by
  induction aux generalizing t with
  | nil =>
    refine ⟨h, ?_, fun key hk => Or.inr hk, fun key hk => hk⟩
    intro key; simp only [List.foldl_nil, auxAt, AMap.lk, Option.getD_none]; grind
  | cons e aux ih =>
    have hd' : AMap.Distinct aux ∧ e.1 ∉ aux.map Prod.fst := by
      have := List.nodup_cons.1 (show ((e.1 :: aux.map Prod.fst).Nodup) from hd)
      exact ⟨this.2, this.1⟩
    obtain ⟨a1, a2, a3, a4⟩ := updateOne_spec h e
    obtain ⟨b1, b2, b3, b4⟩ := ih hd'.1 a1
    rw [List.foldl_cons]
    refine ⟨b1, ?_, ?_, fun key hk => b4 key (a4 key hk)⟩
    · intro key
      rw [b2, a2]
      obtain ⟨ek, ea, eb⟩ := e
      by_cases hk : key = ek
      · subst hk
        have hn : AMap.lk aux key = none := AMap.lk_none_iff.2 hd'.2
        simp only [auxAt, hn, AMap.lk, if_true, Option.getD_none, Option.getD_some]; grind
      · have hk' : ¬ ek = key := fun h => hk h.symm
        simp only [auxAt, AMap.lk, hk, hk', if_false]; grind
    · intro key hk0
      rcases b3 key hk0 with hk | hk
      · left
        obtain ⟨ek, ev⟩ := e
        by_cases h' : ek = key
        · simp [AMap.lk, h']
        · simp only [AMap.lk, h', if_false]; exact hk
      · rcases a3 key hk with h' | h'
        · left; obtain ⟨ek, ev⟩ := e; simp [AMap.lk, h']
        · exact Or.inr h'

end Thot.Hmm
