import Verif.Online.Model
/-! Mini-batch training and complete retraining: what is done to the models by a sequence of calls (C196, C197). -/
namespace Thot.Online

variable {S Y : Type}

/-- The freshly created (or completely cleared) model. -/
def fresh : MSt S Y := ⟨[], [], 0, 0, []⟩

/-- Specification: what mini-batch number `k` (of `m` sentences) does: the pairs of the block are added, the alignment
models are trained `em` times with exactly those samples, then the phrase and the language model with those sentences;
the learning rate is that of step `k`, for the references of the block with their own system translations. -/
def blockSpec (m em : Nat) (l : List (S × Y)) (k : Nat) : List (Op S Y) :=
  let blk := (l.drop (k * m)).take m
  let lr : Lr S Y := ⟨k, blk.map Prod.fst, blk.map Prod.snd⟩
  blk.map (fun x => Op.add x.1) ++ List.replicate em (Op.train (k * m) (k * m + (m - 1)) (some lr)) ++
    [Op.phrases (blk.map Prod.fst) (some lr), Op.lang (blk.map Prod.fst) (some lr)]

theorem runM_append (f : MSt S Y → S × Y → Option (MSt S Y)) : ∀ (a b : List (S × Y)) (st : MSt S Y),
    runM f st (a ++ b) = (runM f st a).bind (fun st' => runM f st' b)
  | [], b, st => rfl
  | s :: a, b, st => by
    simp only [List.cons_append, runM]
    cases f st s with
    | none => rfl
    | some st' => exact runM_append f a b st'

theorem minibatch_pos {m em : Nat} (hm : 0 < m) (st : MSt S Y) (s : S × Y) (h : (st.buf.length + 1) % m = 0) :
    minibatch m em st s = some ⟨[], [], st.step + 1, st.size + (st.buf ++ [s.1]).length,
      st.ops ++ batchOps m em st.size (st.buf ++ [s.1]) ⟨st.step, st.buf ++ [s.1], st.sys ++ [s.2]⟩⟩ := by
  unfold minibatch
  rw [if_neg (by omega), if_pos (by simpa using h)]

theorem minibatch_neg {m em : Nat} (hm : 0 < m) (st : MSt S Y) (s : S × Y) (h : ¬ (st.buf.length + 1) % m = 0) :
    minibatch m em st s = some { st with buf := st.buf ++ [s.1], sys := st.sys ++ [s.2] } := by
  unfold minibatch
  rw [if_neg (by omega), if_neg (by simpa using h)]

/-- Fewer sentences than a block are only stored. -/
theorem minibatch_store {m em : Nat} (hm : 0 < m) : ∀ (l : List (S × Y)) (st : MSt S Y), st.buf.length + l.length < m →
    runM (minibatch m em) st l = some { st with buf := st.buf ++ l.map Prod.fst, sys := st.sys ++ l.map Prod.snd }
  | [], st, _ => by simp [runM]
  | s :: l, st, h => by
    simp only [List.length_cons] at h
    have hne : ¬ (st.buf.length + 1) % m = 0 := by
      rw [Nat.mod_eq_of_lt (by omega)]; omega
    simp only [runM, minibatch_neg hm st s hne]
    rw [minibatch_store hm l _ (by simp only [List.length_append, List.length_cons, List.length_nil]; omega)]
    simp [List.append_assoc]

/-- A block. -/
theorem minibatch_block {m em : Nat} (hm : 0 < m) (l : List (S × Y)) (st : MSt S Y) (hl : l.length = m) (hb : st.buf = []) (hs : st.sys = []) :
    runM (minibatch m em) st l = some ⟨[], [], st.step + 1, st.size + m,
      st.ops ++ batchOps m em st.size (l.map Prod.fst) ⟨st.step, l.map Prod.fst, l.map Prod.snd⟩⟩ := by
  obtain ⟨a, s, rfl⟩ : ∃ a s, l = a ++ [s] := by
    have h0 : l ≠ [] := by intro h; subst h; simp at hl; omega
    exact ⟨l.dropLast, l.getLast h0, (List.dropLast_concat_getLast h0).symm⟩
  simp only [List.length_append, List.length_cons, List.length_nil] at hl
  rw [runM_append, minibatch_store hm a st (by rw [hb]; simp; omega)]
  simp only [Option.bind_some, runM]
  rw [minibatch_pos hm _ s (by
    simp only [List.length_append, hb, List.length_nil, List.length_map]
    rw [show 0 + a.length + 1 = m by omega, Nat.mod_self])]
  simp only [hb, hs, List.nil_append, List.map_append, List.map_cons, List.map_nil]
  have e : (List.map Prod.fst a ++ [s.1]).length = m := by simp; omega
  rw [e]

theorem batchOps_spec {m em : Nat} (hm : 0 < m) (l : List (S × Y)) (k : Nat) (hk : k * m + m ≤ l.length) :
    batchOps m em (k * m) (((l.drop (k * m)).take m).map Prod.fst)
      ⟨k, ((l.drop (k * m)).take m).map Prod.fst, ((l.drop (k * m)).take m).map Prod.snd⟩ = blockSpec m em l k := by
  unfold batchOps blockSpec
  have e : (((l.drop (k * m)).take m).map Prod.fst).length = m := by simp; omega
  simp only [e, List.map_map]
  have e1 : k * m + m - m = k * m := by omega
  have e2 : k * m + m - 1 = k * m + (m - 1) := by omega
  rw [e1, e2]
  rfl

theorem minibatch_prefix {m em : Nat} (hm : 0 < m) (l : List (S × Y)) : ∀ k, k * m ≤ l.length →
    runM (minibatch m em) fresh (l.take (k * m)) = some ⟨[], [], k, k * m, (List.range k).flatMap (blockSpec m em l)⟩
  | 0, _ => by simp [runM, fresh]
  | k + 1, h => by
    have h' : k * m + m ≤ l.length := by rw [Nat.succ_mul] at h; exact h
    have e : l.take ((k + 1) * m) = l.take (k * m) ++ (l.drop (k * m)).take m := by
      rw [Nat.succ_mul, List.take_add]
    rw [e, runM_append, minibatch_prefix hm l k (by omega)]
    simp only [Option.bind_some]
    rw [minibatch_block hm _ _ (by simp; omega) rfl rfl, batchOps_spec hm l k h']
    simp [List.range_succ, List.flatMap_append, Nat.succ_mul]

/-- C196: with `m ≥ 1`, any sequence of sentence pairs (with their system translations) given to a fresh model is
processed in consecutive blocks of exactly `m`: each pair of a complete block is added once, each training pass of block
`k` covers exactly the samples of that block, and the step of its learning rate is `k`; the last `N % m` pairs have only been
stored. -/
theorem C196_minibatch (m em : Nat) (hm : 0 < m) (l : List (S × Y)) :
    runM (minibatch m em) fresh l = some
      ⟨(l.drop (l.length / m * m)).map Prod.fst, (l.drop (l.length / m * m)).map Prod.snd, l.length / m, l.length / m * m,
        (List.range (l.length / m)).flatMap (blockSpec m em l)⟩ := by
  have h := Nat.div_mul_le_self l.length m
  conv => lhs; rw [← List.take_append_drop (l.length / m * m) l]
  rw [runM_append, minibatch_prefix hm l _ h]
  simp only [Option.bind_some]
  rw [minibatch_store hm _ _ (by
    simp only [List.length_nil, List.length_drop, Nat.zero_add]
    have := Nat.mod_lt l.length hm
    have h2 := Nat.div_add_mod l.length m
    rw [Nat.mul_comm] at h2
    omega)]
  simp

/-- C196: a learning step below 1 is a division by zero with the first sentence. -/
theorem C196_zero (em : Nat) (st : MSt S Y) (s : S × Y) : minibatch 0 em st s = none ∧ retrain 0 em st s = none := ⟨rfl, rfl⟩

/-- C197, complete retraining: after `N` pairs, retraining number `k` (`k = 1 … N/m`) has cleared the models and used exactly
the first `k*m` pairs, and the models hold the first `(N/m)*m` pairs; all the pairs are kept for the following retrainings. -/
def retrainSpec (m em : Nat) (l : List (S × Y)) (k : Nat) : List (Op S Y) :=
  let ss := (l.take ((k + 1) * m)).map Prod.fst
  [Op.clear] ++ ss.map Op.add ++ List.replicate em (Op.train 0 ((k + 1) * m - 1) none) ++ [Op.phrases ss none, Op.lang ss none]

theorem retrain_snoc {m em : Nat} (hm : 0 < m) (st : MSt S Y) (s : S × Y) : retrain m em st s =
    some (if (st.buf.length + 1) % m = 0 then { st with
      buf := st.buf ++ [s.1], size := st.buf.length + 1, ops := st.ops ++ retrainOps em (st.buf ++ [s.1]) }
      else { st with buf := st.buf ++ [s.1] }) := by
  unfold retrain
  rw [if_neg (by omega)]
  have e : (st.buf ++ [s.1]).length = st.buf.length + 1 := by simp
  rw [e]
  split <;> rfl

theorem retrain_prefix {m em : Nat} (hm : 0 < m) (l : List (S × Y)) : ∀ k, k ≤ l.length →
    runM (retrain m em) fresh (l.take k) = some
      ⟨(l.take k).map Prod.fst, [], 0, k / m * m, (List.range (k / m)).flatMap (retrainSpec m em l)⟩
  | 0, _ => by simp [runM, fresh]
  | k + 1, h => by
    have hk : k < l.length := by omega
    have e : l.take (k + 1) = l.take k ++ [l[k]] := by rw [List.take_succ_eq_append_getElem hk]
    rw [e, runM_append, retrain_prefix hm l k (by omega)]
    simp only [Option.bind_some, runM, retrain_snoc hm]
    have el : ((l.take k).map Prod.fst).length = k := by simp; omega
    simp only [el]
    have d0 := Nat.div_add_mod k m
    have d1 := Nat.div_add_mod (k + 1) m
    have m0 := Nat.mod_lt k hm
    have m1 := Nat.mod_lt (k + 1) hm
    by_cases hd : (k + 1) % m = 0
    · rw [if_pos hd]
      have hq : (k + 1) / m = k / m + 1 := by
        have := @Nat.succ_div k m
        rw [if_pos (Nat.dvd_of_mod_eq_zero hd)] at this
        exact this
      have hsz : (k / m + 1) * m = k + 1 := by
        rw [hq, hd, Nat.add_zero, Nat.mul_comm] at d1; exact d1
      have hspec : retrainSpec m em l (k / m) = retrainOps em ((l.take k).map Prod.fst ++ [l[k].1]) := by
        unfold retrainSpec retrainOps
        simp only [hsz, e, List.map_append, List.map_cons, List.map_nil, List.length_append, List.length_cons, List.length_nil, el]
        simp
      simp only [hq, hsz, List.range_succ, List.flatMap_append, List.flatMap_cons, List.flatMap_nil, hspec,
        List.append_nil, List.map_append, List.map_cons, List.map_nil]
    · rw [if_neg hd]
      have hq : (k + 1) / m = k / m := by
        have := @Nat.succ_div k m
        rw [if_neg (fun hh => hd (Nat.mod_eq_zero_of_dvd hh))] at this
        simpa using this
      rw [hq, List.map_append]
      rfl

theorem C197_retrain (m em : Nat) (hm : 0 < m) (l : List (S × Y)) :
    runM (retrain m em) fresh l = some
      ⟨l.map Prod.fst, [], 0, l.length / m * m, (List.range (l.length / m)).flatMap (retrainSpec m em l)⟩ := by
  have := retrain_prefix (em := em) hm l l.length (Nat.le_refl _)
  rwa [List.take_length] at this

/-! ### Clearing the model -/

/-- C198 in full: after `clear` the model is trained with mini-batches as a fresh one. -/
def C198_full : Prop := ∀ (m em : Nat), 0 < m → ∀ (l l' : List (Nat × Nat)) (st st' : MSt Nat Nat),
  runM (minibatch m em) fresh l = some st → runM (minibatch m em) (clearAll st) l' = some st' →
  st'.ops = st.ops ++ [Op.clear] ++ (List.range (l'.length / m)).flatMap (blockSpec m em l')

theorem runM_ops {m em : Nat} : ∀ (l : List (S × Y)) (st : MSt S Y) (pre : List (Op S Y)),
    runM (minibatch m em) { st with ops := pre ++ st.ops } l = (runM (minibatch m em) st l).map (fun r => { r with ops := pre ++ r.ops })
  | [], st, pre => by simp [runM]
  | s :: l, st, pre => by
    by_cases hm : 0 < m
    · by_cases h : (st.buf.length + 1) % m = 0
      · simp only [runM, minibatch_pos hm st s h]
        rw [minibatch_pos hm { st with ops := pre ++ st.ops } s h]
        simp only [List.append_assoc]
        exact runM_ops l ⟨[], [], st.step + 1, st.size + (st.buf ++ [s.1]).length, _⟩ pre
      · simp only [runM, minibatch_neg hm st s h]
        rw [minibatch_neg hm { st with ops := pre ++ st.ops } s h]
        exact runM_ops l { st with buf := st.buf ++ [s.1], sys := st.sys ++ [s.2] } pre
    · have e : m = 0 := by omega
      subst e
      simp [runM, minibatch]

/-- C198, part that holds: when `clear` is called with no pending sentence (their number is a multiple of the mini-batch
size). -/
theorem C198_clear_partial (m em : Nat) (hm : 0 < m) (l l' : List (S × Y)) (st st' : MSt S Y)
    (hl : l.length % m = 0) (h : runM (minibatch m em) fresh l = some st) (h' : runM (minibatch m em) (clearAll st) l' = some st') :
    st'.ops = st.ops ++ [Op.clear] ++ (List.range (l'.length / m)).flatMap (blockSpec m em l') := by
  have e := C196_minibatch m em hm l
  have d := Nat.div_add_mod l.length m
  rw [hl, Nat.add_zero, Nat.mul_comm] at d
  rw [d, List.drop_length] at e
  have es := (Option.some.inj (h.symm.trans e))
  have hc : clearAll st = { (fresh : MSt S Y) with ops := (st.ops ++ [Op.clear]) ++ [] } := by
    rw [es]; simp [clearAll, fresh]
  have h2 := runM_ops (m := m) (em := em) l' (fresh : MSt S Y) (st.ops ++ [Op.clear])
  have h3 : ((st.ops ++ [Op.clear]) ++ [] : List (Op S Y)) = (st.ops ++ [Op.clear]) ++ (fresh : MSt S Y).ops := rfl
  rw [hc, h3, h2, C196_minibatch m em hm l'] at h'
  have := Option.some.inj h'
  rw [← this]

/-- The system translations of sentences that were pending when the model was cleared are taken for those of the following
sentences. -/
theorem C198_counterexample : ¬ C198_full := by
  intro h
  have := h 2 1 (by decide) [(1, 10)] [(2, 20), (3, 30)] _ _ rfl rfl
  revert this
  decide +kernel

/-- Five pairs, blocks of two: two mini-batches, one pair pending; two retrainings, with two and four pairs. -/
example : (runM (minibatch 2 1) fresh [(1, 10), (2, 20), (3, 30), (4, 40), (5, 50)]).map (fun st => (st.buf, st.sys, st.step, st.size)) =
    some ([5], [50], 2, 4) ∧
    (runM (minibatch 2 1) fresh [(1, 10), (2, 20), (3, 30), (4, 40), (5, 50)]).map (·.ops) = some
      [Op.add 1, Op.add 2, Op.train 0 1 (some ⟨0, [1, 2], [10, 20]⟩), Op.phrases [1, 2] (some ⟨0, [1, 2], [10, 20]⟩),
        Op.lang [1, 2] (some ⟨0, [1, 2], [10, 20]⟩),
       Op.add 3, Op.add 4, Op.train 2 3 (some ⟨1, [3, 4], [30, 40]⟩), Op.phrases [3, 4] (some ⟨1, [3, 4], [30, 40]⟩),
        Op.lang [3, 4] (some ⟨1, [3, 4], [30, 40]⟩)] ∧
    (runM (retrain 2 1) fresh [(1, 10), (2, 20), (3, 30), (4, 40), (5, 50)]).map (·.ops) = some
      [Op.clear, Op.add 1, Op.add 2, Op.train 0 1 none, Op.phrases [1, 2] none, Op.lang [1, 2] none,
       Op.clear, Op.add 1, Op.add 2, Op.add 3, Op.add 4, Op.train 0 3 none, Op.phrases [1, 2, 3, 4] none, Op.lang [1, 2, 3, 4] none] := by
  decide +kernel

end Thot.Online
