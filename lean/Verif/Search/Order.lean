import Verif.Search.Optimal

/-!
Property C92: `getNextTrans` gives translations in non-increasing order of score.
-/
namespace Thot.Search
open Thot.StrProc (Str)
open MultiStack (Core SortedOk elems push_spec Outcome)

variable {S : Type} [DecidableEq S]

/-- The session goes on with any number of calls to `getNextTrans`. -/
inductive Later (m : Mode) (D : Dec S) (M : Model) (I : Input) (L : Loop S) : Loop S → Prop where
  | refl : Later m D M I L L
  | next {L1 L2 : Loop S} : Later m D M I L L1 → nextTrans m D M I L1.s = some L2 → Later m D M I L L2

/-- The score of every translation everything stored leads to satisfies `B`. -/
structure Bnd (m : Mode) (D : Dec S) (M : Model) (I : Input) (B : Int → Prop) (s : DState S) : Prop where
  inv : SInv m D M I s
  bf : D.breadthFirst = false → s.ms.bf = false
  le : ∀ k, ∀ e ∈ elems s.ms k, ∀ c, Ext m M I (back D M I.src.length e.2.2) c → Complete I c → B c.score

theorem Ext.trans {m : Mode} {M : Model} {I : Input} {a b c : Hyp} (h1 : Ext m M I a b) (h2 : Ext m M I b c) :
    Ext m M I a c := by
  induction h2 with
  | refl => exact h1
  | step _ he hm ih => exact .step ih he hm

theorem bnd_push {m : Mode} {D : Dec S} {M : Model} {I : Input} {B : Int → Prop} {s : DState S} (hs : Bnd m D M I B s) {h : Hyp}
    (hr : Reach m M I h) (hb : ∀ c, Ext m M I h c → Complete I c → B c.score) {ok : Bool} {s' : DState S}
    (he : decPush D M I.src.length s h = some (ok, s')) : Bnd m D M I B s' := by
  obtain ⟨ok1, s1, e1, e2⟩ := decPush_spec hs.inv hr
  rw [e1] at he; cases he
  have hbe : back D M I.src.length (stored D M I.src.length h) = h := back_stored ..
  unfold decPush at e1
  split at e1
  · dsimp only at e1
    split at e1
    · cases e1; exact hs
    · obtain ⟨ok2, ms', f1, f2, f3, _, f5, ho⟩ := push_spec hs.inv.core hs.inv.sorted (stored D M I.src.length h)
      rw [f1] at e1
      cases e1
      refine ⟨e2, fun hd => by dsimp only; rw [f5]; exact hs.bf hd, fun k e he c hx hc => ?_⟩
      rcases outcome_mem ho he with h1 | ⟨h1, _⟩
      · exact hs.le k e h1 c hx hc
      · subst h1
        dsimp only at hx
        rw [hbe] at hx
        exact hb c hx hc
  · cases e1; exact hs

theorem bnd_pushAll {m : Mode} {D : Dec S} {M : Model} {I : Input} {B : Int → Prop} : ∀ (hs : List Hyp) {s s' : DState S},
    Bnd m D M I B s → (∀ h ∈ hs, Reach m M I h ∧ ∀ c, Ext m M I h c → Complete I c → B c.score) →
    pushAll D M I.src.length hs s = some s' → Bnd m D M I B s'
  | [], s, s', h, _, he => by cases he; exact h
  | x :: xs, s, s', h, hr, he => by
    rw [pushAll] at he
    cases hx : decPush D M I.src.length s x with
    | none => rw [hx] at he; cases he
    | some r =>
      rw [hx] at he
      exact bnd_pushAll xs (bnd_push h (hr x (by simp)).1 (hr x (by simp)).2 (by rw [hx])) (fun y hy => hr y (by simp [hy])) he

theorem bnd_pop {m : Mode} {D : Dec S} {M : Model} {I : Input} (hrk : Ranks m D M I) {B : Int → Prop} {s : DState S}
    (hs : Bnd m D M I B s) (hne : MultiStack.empty s.ms = false) {h : Hyp} {s' : DState S}
    (he : decPop D M I.src.length s = some (h, s')) :
    Reach m M I h ∧ (∀ c, Ext m M I h c → Complete I c → B c.score) ∧ Bnd m D M I B s' ∧
      (Complete I h → Bnd m D M I (· ≤ h.score) s') := by
  obtain ⟨h1, s1, e1, e2, e3⟩ := decPop_spec hs.inv hne
  rw [he] at e1; cases e1
  obtain ⟨e, ms', k, _, r, f1, f2, f3, f4, f5, f6, _, f7, f8, f9, f10⟩ :=
    popStored_spec hs.inv.core hs.inv.sorted D I.src.length hne
  rw [decPop, f1] at he
  simp only [Option.map_some, Option.some.injEq, Prod.mk.injEq] at he
  obtain ⟨he1, rfl⟩ := he
  have hek : e ∈ elems s.ms k := by rw [f6]; simp
  have hsub : ∀ j, ∀ y ∈ elems ms' j, y ∈ elems s.ms j := by
    intro j y hy
    rw [f7] at hy
    split at hy
    · rename_i hj
      rw [hj, f6]; exact List.mem_cons_of_mem _ hy
    · exact hy
  have hbf : D.breadthFirst = false → ms'.bf = false := fun hd => by
    rw [f8, hd]; exact hs.bf hd
  refine ⟨e3, fun c hx hc => hs.le k e hek c (by rw [he1]; exact hx) hc, ⟨e2, hbf, fun j y hy => hs.le j y (hsub j y hy)⟩,
    fun hc => ⟨e2, hbf, fun j y hy c hx hcc => ?_⟩⟩
  obtain ⟨g, hg, hge⟩ := hs.inv.el j y (hsub j y hy)
  obtain ⟨g0, hg0, hge0⟩ := hs.inv.el k e hek
  have hg0h : g0 = h := by rw [← he1, hge0, back_stored]
  subst hg0h
  have hle : y.1 ≤ e.1 := by
    cases hd : D.breadthFirst with
    | false => exact f9 hd (hs.bf hd) j y (hsub j y hy)
    | true => exact f10 hd (by rw [hge0]; exact hc) j y (hsub j y hy)
  have hy1 := (hs.inv.core.el j y (hsub j y hy)).1
  have he1' := (hs.inv.core.el k e hek).1
  rw [hge, back_stored] at hx
  exact hrk g g0 c hg e3 hc hx hcc (by rw [← hge, ← hge0]; omega)

theorem bnd_loop {m : Mode} {D : Dec S} {M : Model} {I : Input} (hsafe : Safe m M I) (hrk : Ranks m D M I) (hI1 : D.I = 1)
    {B : Int → Prop} : ∀ (k : Nat) {L L' : Loop S}, L.ended = false → Reach m M I L.result → Bnd m D M I B L.s →
    ¬ Complete I L.result →
    decLoop m D M I k L = some L' → Bnd m D M I B L'.s ∧
      (Complete I L'.result → B L'.result.score ∧ Bnd m D M I (· ≤ L'.result.score) L'.s)
  | 0, L, L', _, hr, hb, hn, he => by
    cases he
    exact ⟨hb, fun h => absurd h hn⟩
  | k + 1, L, L', hend, hr, hb, hn, he => by
    unfold decLoop at he
    rw [hend, if_neg (by simp), hI1] at he
    cases hem : MultiStack.empty L.s.ms with
    | true =>
      simp only [popUpTo, hem, if_true] at he
      cases he
      exact ⟨hb, fun h => absurd h hn⟩
    | false =>
      obtain ⟨h, s1, e1, e2, e3⟩ := decPop_spec hb.inv hem
      obtain ⟨b1, b2, b3, b4⟩ := bnd_pop hrk hb hem e1
      have hpop : popUpTo D M I.src.length 1 L.s = some ([h], s1) := by simp [popUpTo, hem, e1]
      rw [hpop] at he
      dsimp only at he
      by_cases hc : isComplete I.src.length h.data = true
      · have hh : handleAll m D M I [h] ⟨false, L.result, s1⟩ = some ⟨true, h, s1⟩ := by simp [handleAll, handle, hc]
        rw [hh] at he
        have : L' = ⟨true, h, s1⟩ := by cases k <;> simpa [decLoop, eq_comm] using he
        subst this
        exact ⟨b3, fun _ => ⟨b2 h .refl hc, b4 hc⟩⟩
      · obtain ⟨hs, f1⟩ := hsafe h e3
        have hpu := pushAll_spec hs.reverse b3.inv fun x hx => e3.step f1 (List.mem_reverse.1 hx)
        obtain ⟨s2, g1, _⟩ := hpu
        have hh : handleAll m D M I [h] ⟨false, L.result, s1⟩ =
            some ⟨false, updateResult m I.src.length L.result h, s2⟩ := by
          simp [handleAll, handle, hc, f1, g1]
        rw [hh] at he
        dsimp only at he
        have hb2 : Bnd m D M I B s2 := bnd_pushAll hs.reverse b3 (fun x hx => ⟨e3.step f1 (List.mem_reverse.1 hx),
          fun c hxc hcc => b2 c (Ext.trans (.step .refl f1 (List.mem_reverse.1 hx)) hxc) hcc⟩) g1
        have hres : Reach m M I (updateResult m I.src.length L.result h) ∧ ¬ Complete I (updateResult m I.src.length L.result h) := by
          rcases updateResult_cases m I.src.length L.result h with h1 | ⟨h1, _⟩
          · rw [h1]; exact ⟨hr, hn⟩
          · rw [h1]; exact ⟨e3, hc⟩
        exact bnd_loop hsafe hrk hI1 k (L := ⟨false, _, s2⟩) rfl hres.1 hb2 hres.2 he

theorem null_incomplete {m : Mode} {M : Model} {I : Input} (hl : lengthsOk m I = true) : ¬ Complete I (nullHyp M) := by
  simp only [lengthsOk, Bool.and_eq_true, decide_eq_true_eq] at hl
  obtain ⟨⟨_, h1⟩, _⟩ := hl
  simp [Complete, isComplete, uncovered, nullHyp, nullData]
  exact fun h => h1 (by rw [h]; rfl)

/-- The bound after a complete result holds for the rest of the session. -/
theorem bnd_later {m : Mode} {D : Dec S} {M : Model} {I : Input} (hsafe : Safe m M I) (hl : lengthsOk m I = true)
    (hrk : Ranks m D M I) (hI1 : D.I = 1) {B : Int → Prop} {L L' : Loop S} (hb : Bnd m D M I B L.s)
    (hx : Later m D M I L L') : Bnd m D M I B L'.s ∧ (L = L' ∨ (Complete I L'.result → B L'.result.score)) := by
  induction hx with
  | refl => exact ⟨hb, Or.inl rfl⟩
  | @next L1 L2 _ hn ih =>
    have := bnd_loop hsafe hrk hI1 (B := B) (D.maxIter - 1) (L := ⟨false, nullHyp M, { L1.s with best := D.worst }⟩) rfl .null
      ⟨⟨ih.1.inv.core, ih.1.inv.sorted, ih.1.inv.el⟩, ih.1.bf, ih.1.le⟩ (null_incomplete hl) hn
    exact ⟨this.1, Or.inr fun h => (this.2 h).1⟩

theorem bnd_session {m : Mode} {D : Dec S} {M : Model} {I : Input} (hsafe : Safe m M I) (hl : lengthsOk m I = true)
    (hrk : Ranks m D M I) (hI1 : D.I = 1) {ms : MultiStack.MS S HypData} (hbf : D.breadthFirst = false → ms.bf = false)
    {L : Loop S} (hs : Session m D M I ms L) :
    (∃ B, Bnd m D M I B L.s) ∧ (Complete I L.result → Bnd m D M I (· ≤ L.result.score) L.s) := by
  induction hs with
  | @first L h =>
    unfold translate at h
    rw [if_pos hl] at h
    have h0 : Bnd m D M I (fun _ => True) (⟨MultiStack.clearAll ms, D.worst⟩ : DState S) :=
      ⟨sinv_clear m D M I ms _, hbf, fun k e he => (by cases he)⟩
    cases hp : decPush D M I.src.length ⟨MultiStack.clearAll ms, D.worst⟩ (nullHyp M) with
    | none => rw [hp] at h; cases h
    | some r =>
      rw [hp] at h
      have h1 := bnd_push h0 .null (fun _ _ _ => trivial) hp
      have := bnd_loop hsafe hrk hI1 (B := fun _ => True) (D.maxIter - 1) (L := ⟨false, nullHyp M, r.2⟩) rfl .null h1
        (null_incomplete hl) h
      exact ⟨⟨_, this.1⟩, fun h => (this.2 h).2⟩
  | @next L0 L' _ h ih =>
    obtain ⟨⟨B, hB⟩, _⟩ := ih
    have := bnd_loop hsafe hrk hI1 (B := B) (D.maxIter - 1) (L := ⟨false, nullHyp M, { L0.s with best := D.worst }⟩) rfl .null
      ⟨⟨hB.inv.core, hB.inv.sorted, hB.inv.el⟩, hB.bf, hB.le⟩ (null_incomplete hl) h
    exact ⟨⟨B, this.1⟩, fun h => (this.2 h).2⟩

/-! ### C92 -/

/-- Best-first search with `I = 1` and an admissible heuristic: after a translation, no later call to `getNextTrans` gives a
better one. Hypothesis states, container size and iteration limit are arbitrary. -/
theorem C92_order_partial {m : Mode} {D : Dec S} {M : Model} {I : Input} (hI : m = .trans → FromRaw I) (hl : lengthsOk m I = true)
    (hI1 : D.I = 1) (hbf : D.breadthFirst = false) (ha : Admissible m M I) {ms : MultiStack.MS S HypData}
    (hms : ms.bf = false) {L L' : Loop S} (hs : Session m D M I ms L) (hx : Later m D M I L L')
    (hc : isComplete I.src.length L.result.data = true) (hc' : isComplete I.src.length L'.result.data = true) :
    L'.result.score ≤ L.result.score := by
  have hsafe := safe_of (M := M) hI hl
  have hrk := ranks_admissible hbf ha
  have hb := (bnd_session hsafe hl hrk hI1 (fun _ => hms) hs).2 hc
  rcases (bnd_later hsafe hl hrk hI1 hb hx).2 with h | h
  · rw [h]; exact Int.le_refl _
  · exact h hc'

/-- Breadth-first search with `I = 1`. -/
theorem C92_order_breadth_partial {m : Mode} {D : Dec S} {M : Model} {I : Input} (hI : m = .trans → FromRaw I) (hl : lengthsOk m I = true)
    (hI1 : D.I = 1) (hb : BreadthFirst m D M I) {ms : MultiStack.MS S HypData}
    {L L' : Loop S} (hs : Session m D M I ms L) (hx : Later m D M I L L')
    (hc : isComplete I.src.length L.result.data = true) (hc' : isComplete I.src.length L'.result.data = true) :
    L'.result.score ≤ L.result.score := by
  have hsafe := safe_of (M := M) hI hl
  have hrk := ranks_breadth hb
  have hb := (bnd_session hsafe hl hrk hI1 (fun h => by rw [hb.on] at h; cases h) hs).2 hc
  rcases (bnd_later hsafe hl hrk hI1 hb hx).2 with h | h
  · rw [h]; exact Int.le_refl _
  · exact h hc'

/-- The order for every `I`. -/
def C92_full : Prop := ∀ (M : Model) (I : Input) (D : Dec HypData) (ms : MultiStack.MS HypData HypData), FromRaw I →
  lengthsOk .trans I = true → 1 ≤ D.I → D.breadthFirst = false → ms.bf = false → Admissible .trans M I →
  ∀ L L', Session .trans D M I ms L → Later .trans D M I L L' → isComplete I.src.length L.result.data = true →
    isComplete I.src.length L'.result.data = true → L'.result.score ≤ L.result.score

/-- With `I = 2` the first translation of `exO` scores -2 and the second one -1. -/
theorem C92_counterexample : ¬ C92_full := by
  intro H
  obtain ⟨ms, hms⟩ : ∃ ms : MultiStack.MS HypData HypData, ms = { MultiStack.new [] with max := 100 } := ⟨_, rfl⟩
  have key : ((translate .trans (exDec 2 100) exO exOInput { MultiStack.new [] with max := 100 }).bind fun L =>
      (nextTrans .trans (exDec 2 100) exO exOInput L.s).map fun L' => (isComplete exOInput.src.length L.result.data,
        isComplete exOInput.src.length L'.result.data, L.result.score, L'.result.score)) = some (true, true, -2, -1) := by
    decide +kernel
  rw [← hms] at key
  cases h1 : translate .trans (exDec 2 100) exO exOInput ms with
  | none => rw [h1] at key; cases key
  | some L =>
    rw [h1] at key
    dsimp only [Option.bind_some] at key
    cases h2 : nextTrans .trans (exDec 2 100) exO exOInput L.s with
    | none => rw [h2] at key; cases key
    | some L' =>
      rw [h2] at key
      simp only [Option.map_some, Option.some.injEq, Prod.mk.injEq] at key
      obtain ⟨k1, k2, k3, k4⟩ := key
      have := H exO exOInput (exDec 2 100) ms exO_fromRaw (by decide +kernel) (by decide) rfl (by rw [hms]; rfl) exO_admissible
        L L' (.first h1) (.next .refl h2) k1 k2
      omega

end Thot.Search
