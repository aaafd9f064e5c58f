import Verif.HatTable.Model
import Verif.LevelDb.Props
/-! Reference semantics of the phrase table and the invariant linking it with the trie. -/
namespace Thot.HatTable
open AMap Thot.LevelDb

/-! ### Specification -/

/-- Three independent maps: counts of source phrases, of target phrases and of pairs (`none`: not recorded). -/
structure Ref where
  s : Phrase → Option Rat
  t : Phrase → Option Rat
  st : Phrase → Phrase → Option Rat

def Ref.empty : Ref := ⟨fun _ => none, fun _ => none, fun _ _ => none⟩
def upd {α : Type} [DecidableEq α] (f : α → Option Rat) (a : α) (v : Rat) : α → Option Rat := fun x => if x = a then some v else f x
def upd2 (f : Phrase → Phrase → Option Rat) (a b : Phrase) (v : Rat) : Phrase → Phrase → Option Rat :=
  fun x y => if x = a ∧ y = b then some v else f x y

/-- What each call is meant to do. -/
def Ref.step (r : Ref) : Op → Ref
  | .add s t cs cst => ⟨upd r.s s cs, upd r.t t ((r.t t).getD 0 + cst), upd2 r.st s t cst⟩
  | .addSrc s c => { r with s := upd r.s s c }
  | .addTrg t c => { r with t := upd r.t t c }
  | .addSrcTrg s t c => { r with st := upd2 r.st s t c }
  | .incr s t c =>
    ⟨upd r.s s ((r.s s).getD 0 + c), upd r.t t ((r.t t).getD 0 + c), upd2 r.st s t ((r.st s t).getD 0 + c)⟩
  | .clear => Ref.empty

def ref (os : List Op) : Ref := os.foldl Ref.step Ref.empty

/-- The histories considered: word indices fit in three base-254 digits, none is the reserved word 2, and target phrases
are not empty. -/
def OpOk : Op → Prop
  | .add s t _ _ => Ok s ∧ Ok t ∧ t ≠ []
  | .addSrc s _ => Ok s
  | .addTrg t _ => Ok t ∧ t ≠ []
  | .addSrcTrg s t _ => Ok s ∧ Ok t ∧ t ≠ []
  | .incr s t _ => Ok s ∧ Ok t ∧ t ≠ []
  | .clear => True

/-! ### The invariant -/

def Form (v : Phrase) : Prop :=
  (∃ s, Ok s ∧ v = encodeSrc s) ∨ (Ok v ∧ v ≠ []) ∨ ∃ s t, Ok s ∧ Ok t ∧ t ≠ [] ∧ v = encodeTrgSrc s t

theorem form_fits {v : Phrase} (h : Form v) : Fits 3 v := by
  rcases h with ⟨s, hs, rfl⟩ | ⟨hv, _⟩ | ⟨s, t, hs, ht, _, rfl⟩
  · exact fits_src hs
  · exact hv.1
  · exact fits_trgSrc hs ht

structure Inv (m : Trie) (r : Ref) : Prop where
  distinct : Distinct m
  keys : ∀ e ∈ m, ∃ v, Form v ∧ e.1 = key v
  src : ∀ s, Ok s → lk m (key (encodeSrc s)) = r.s s
  trg : ∀ t, Ok t → t ≠ [] → lk m (key t) = r.t t
  pair : ∀ s t, Ok s → Ok t → t ≠ [] → lk m (key (encodeTrgSrc s t)) = r.st s t
  dsrc : ∀ s c, r.s s = some c → Ok s
  dtrg : ∀ t c, r.t t = some c → Ok t ∧ t ≠ []
  dpair : ∀ s t c, r.st s t = some c → Ok s ∧ Ok t ∧ t ≠ []

theorem inv_empty : Inv [] Ref.empty :=
  ⟨distinct_nil, (by intro e he; cases he), fun _ _ => rfl, fun _ _ _ => rfl, fun _ _ _ _ _ => rfl,
    (by intro s c h; cases h), (by intro s c h; cases h), (by intro s t c h; cases h)⟩

theorem keys_put {m : Trie} (hd : Distinct m) (hk : ∀ e ∈ m, ∃ v, Form v ∧ e.1 = key v) {v : Phrase} (hv : Form v) (c : Rat) :
    Distinct (put m (key v) c) ∧ ∀ e ∈ put m (key v) c, ∃ v, Form v ∧ e.1 = key v := by
  have hd' := distinct_put hd (key v) c
  refine ⟨hd', ?_⟩
  intro e he
  have := (lk_some_iff hd').2 (show (e.1, e.2) ∈ put m (key v) c from he)
  rw [lk_put] at this
  split at this
  · next h1 => exact ⟨v, hv, h1⟩
  · exact hk _ ((lk_some_iff hd).1 this)

theorem lk_put_key (m : Trie) {u v : Phrase} (hu : Fits 3 u) (hv : Fits 3 v) (c : Rat) :
    lk (put m (key u) c) (key v) = if v = u then some c else lk m (key v) := by
  rw [lk_put]; simp only [key_inj hv hu]

theorem inv_addSrc {m : Trie} {r : Ref} (h : Inv m r) {s : Phrase} (hs : Ok s) (c : Rat) :
    Inv (addSrcInfo m s c) { r with s := upd r.s s c } := by
  obtain ⟨hd, hk⟩ := keys_put h.distinct h.keys (v := encodeSrc s) (.inl ⟨s, hs, rfl⟩) c
  refine ⟨hd, hk, ?_, ?_, ?_, ?_, h.dtrg, h.dpair⟩
  · intro s' hs'
    simp only [addSrcInfo]
    rw [lk_put_key m (fits_src hs) (fits_src hs'), h.src s' hs']
    simp [upd, encodeSrc]
  · intro t ht hn
    simp only [addSrcInfo]
    rw [lk_put_key m (fits_src hs) ht.1, if_neg (enc_disjoint (s' := []) ht ht hn).1, h.trg t ht hn]
  · intro s' t hs' ht hn
    simp only [addSrcInfo]
    rw [lk_put_key m (fits_src hs) (fits_trgSrc hs' ht), if_neg (enc_disjoint ht ht hn).2.2.symm, h.pair s' t hs' ht hn]
  · intro s' c' hc
    simp only [upd] at hc
    split at hc
    · next he => rw [he]; exact hs
    · exact h.dsrc _ _ hc

theorem inv_addTrg {m : Trie} {r : Ref} (h : Inv m r) {t : Phrase} (ht : Ok t) (hn : t ≠ []) (c : Rat) :
    Inv (addTrgInfo m t c) { r with t := upd r.t t c } := by
  obtain ⟨hd, hk⟩ := keys_put h.distinct h.keys (v := t) (.inr (.inl ⟨ht, hn⟩)) c
  refine ⟨hd, hk, ?_, ?_, ?_, h.dsrc, ?_, h.dpair⟩
  · intro s' hs'
    simp only [addTrgInfo]
    rw [lk_put_key m ht.1 (fits_src hs'), if_neg (enc_disjoint (s' := []) ht ht hn).1.symm, h.src s' hs']
  · intro t' ht' hn'
    simp only [addTrgInfo]
    rw [lk_put_key m ht.1 ht'.1, h.trg t' ht' hn']; rfl
  · intro s' t' hs' ht' hn'
    simp only [addTrgInfo]
    rw [lk_put_key m ht.1 (fits_trgSrc hs' ht'), if_neg (enc_disjoint (s' := []) ht ht' hn').2.1.symm, h.pair s' t' hs' ht' hn']
  · intro t' c' hc
    simp only [upd] at hc
    split at hc
    · next he => rw [he]; exact ⟨ht, hn⟩
    · exact h.dtrg _ _ hc

theorem inv_addPair {m : Trie} {r : Ref} (h : Inv m r) {s t : Phrase} (hs : Ok s) (ht : Ok t) (hn : t ≠ []) (c : Rat) :
    Inv (addSrcTrgInfo m s t c) { r with st := upd2 r.st s t c } := by
  obtain ⟨hd, hk⟩ := keys_put h.distinct h.keys (v := encodeTrgSrc s t) (.inr (.inr ⟨s, t, hs, ht, hn, rfl⟩)) c
  refine ⟨hd, hk, ?_, ?_, ?_, h.dsrc, h.dtrg, ?_⟩
  · intro s' hs'
    simp only [addSrcTrgInfo]
    rw [lk_put_key m (fits_trgSrc hs ht) (fits_src hs'), if_neg (enc_disjoint ht ht hn).2.2, h.src s' hs']
  · intro t' ht' hn'
    simp only [addSrcTrgInfo]
    rw [lk_put_key m (fits_trgSrc hs ht) ht'.1, if_neg (enc_disjoint (s' := []) ht' ht hn).2.1, h.trg t' ht' hn']
  · intro s' t' hs' ht' hn'
    simp only [addSrcTrgInfo]
    rw [lk_put_key m (fits_trgSrc hs ht) (fits_trgSrc hs' ht'), h.pair s' t' hs' ht' hn']
    by_cases he : s' = s ∧ t' = t
    · obtain ⟨rfl, rfl⟩ := he; simp [upd2]
    · have : ¬ encodeTrgSrc s' t' = encodeTrgSrc s t := by
        intro hc
        have := sep_split ht'.2 ht.2 hc
        exact he ⟨this.2, this.1⟩
      simp [upd2, he, this]
  · intro s' t' c' hc
    simp only [upd2] at hc
    split at hc
    · next he => rw [he.1, he.2]; exact ⟨hs, ht, hn⟩
    · exact h.dpair _ _ _ hc

theorem inv_step {m : Trie} {r : Ref} (h : Inv m r) (o : Op) (ho : OpOk o) : Inv (step m o) (r.step o) := by
  cases o with
  | add s t cs cst =>
    obtain ⟨hs, ht, hn⟩ := ho
    have e : cTrg m t = (r.t t).getD 0 := by simp [cTrg, getTrgInfo, h.trg t ht hn]
    simp only [step, addTableEntry, Ref.step, e]
    exact inv_addPair (inv_addTrg (inv_addSrc h hs cs) ht hn _) hs ht hn cst
  | addSrc s c => exact inv_addSrc h ho c
  | addTrg t c => exact inv_addTrg h ho.1 ho.2 c
  | addSrcTrg s t c => exact inv_addPair h ho.1 ho.2.1 ho.2.2 c
  | incr s t c =>
    obtain ⟨hs, ht, hn⟩ := ho
    have e1 : cSrc m s = (r.s s).getD 0 := by simp [cSrc, getSrcInfo, h.src s hs]
    have e2 : cTrg m t = (r.t t).getD 0 := by simp [cTrg, getTrgInfo, h.trg t ht hn]
    have e3 : cSrcTrg m s t = (r.st s t).getD 0 := by simp [cSrcTrg, getSrcTrgInfo, h.pair s t hs ht hn]
    simp only [step, incrCountsOfEntry, Ref.step, e1, e2, e3]
    exact inv_addPair (inv_addTrg (inv_addSrc h hs _) ht hn _) hs ht hn _
  | clear => exact inv_empty

theorem inv_foldl : ∀ (os : List Op) {m : Trie} {r : Ref}, Inv m r → (∀ o ∈ os, OpOk o) →
    Inv (os.foldl step m) (os.foldl Ref.step r)
  | [], _, _, h, _ => h
  | o :: os, _, _, h, ho => by
    rw [List.foldl_cons, List.foldl_cons]
    exact inv_foldl os (inv_step h o (ho o (List.mem_cons_self ..))) (fun o' h' => ho o' (List.mem_cons_of_mem _ h'))

theorem inv_run (os : List Op) (ho : ∀ o ∈ os, OpOk o) : Inv (run os) (ref os) := inv_foldl os inv_empty ho

theorem inv_perm {m m' : Trie} {r : Ref} (h : Inv m r) (hp : m'.Perm m) : Inv m' r := by
  have hd : Distinct m' := (hp.map Prod.fst).nodup_iff.2 h.distinct
  have hl : ∀ k, lk m' k = lk m k := fun k => lk_eq_of_perm hp hd k
  refine ⟨hd, fun e he => h.keys e (hp.mem_iff.1 he), ?_, ?_, ?_, h.dsrc, h.dtrg, h.dpair⟩
  · intro s hs; rw [hl]; exact h.src s hs
  · intro t ht hn; rw [hl]; exact h.trg t ht hn
  · intro s t hs ht hn; rw [hl]; exact h.pair s t hs ht hn

/-! Sorting of the result. -/

theorem mapIns_sorted (e : Phrase × (Rat × Rat)) : ∀ (l : List (Phrase × (Rat × Rat))),
    l.Pairwise (fun a b => a.1 < b.1) → (mapIns e l).Pairwise (fun a b => a.1 < b.1) ∧
      (e.1 ∉ l.map Prod.fst → ∀ x, x ∈ mapIns e l ↔ x = e ∨ x ∈ l) ∧ ∀ x ∈ mapIns e l, x = e ∨ x ∈ l
  | [], _ => by simp [mapIns]
  | a :: r, h => by
    obtain ⟨h1, h2⟩ := List.pairwise_cons.1 h
    obtain ⟨i1, i2, i3⟩ := mapIns_sorted e r h2
    rw [mapIns]
    by_cases c1 : e.1 < a.1
    · rw [if_pos c1]
      refine ⟨List.pairwise_cons.2 ⟨?_, h⟩, fun _ x => by simp, fun x => by simp⟩
      intro x hx
      rcases List.mem_cons.1 hx with rfl | hx
      · exact c1
      · exact List.lt_trans c1 (h1 x hx)
    · rw [if_neg c1]
      by_cases c2 : e.1 = a.1
      · rw [if_pos c2]
        refine ⟨h, fun hn => absurd (by rw [c2]; simp) hn, fun x hx => .inr hx⟩
      · rw [if_neg c2]
        have c3 : a.1 < e.1 := by
          rw [List.not_lt] at c1
          rw [← List.not_le]
          exact fun hc => c2 (List.le_antisymm hc c1)
        refine ⟨List.pairwise_cons.2 ⟨?_, i1⟩, ?_, ?_⟩
        · intro x hx
          rcases i3 x hx with rfl | hx
          · exact c3
          · exact h1 x hx
        · intro hn x
          rw [List.mem_cons, i2 (fun hc => hn (List.mem_cons_of_mem _ hc)), List.mem_cons]
          exact or_left_comm
        · intro x hx
          rcases List.mem_cons.1 hx with rfl | hx
          · exact .inr (List.mem_cons_self ..)
          · rcases i3 x hx with h | h
            · exact .inl h
            · exact .inr (List.mem_cons_of_mem _ h)

theorem toMap_spec (es : List (Phrase × (Rat × Rat))) (hnd : (es.map Prod.fst).Nodup) :
    (toMap es).Pairwise (fun a b => a.1 < b.1) ∧ ∀ x, x ∈ toMap es ↔ x ∈ es := by
  have : ∀ (es l : List (Phrase × (Rat × Rat))), (es.map Prod.fst).Nodup → l.Pairwise (fun a b => a.1 < b.1) →
      (∀ e ∈ es, e.1 ∉ l.map Prod.fst) →
      (es.foldl (fun m e => mapIns e m) l).Pairwise (fun a b => a.1 < b.1) ∧
        ∀ x, x ∈ es.foldl (fun m e => mapIns e m) l ↔ x ∈ es ∨ x ∈ l := by
    intro es
    induction es with
    | nil => intro l _ h _; exact ⟨h, fun x => by simp⟩
    | cons e es ih =>
      intro l hn hl hd
      rw [List.map_cons, List.nodup_cons] at hn
      obtain ⟨h1, h2, _⟩ := mapIns_sorted e l hl
      have h2 := h2 (hd e (List.mem_cons_self ..))
      rw [List.foldl_cons]
      obtain ⟨g1, g2⟩ := ih (mapIns e l) hn.2 h1 (by
        intro f hf hc
        obtain ⟨y, hy, hfy⟩ := List.mem_map.1 hc
        rcases (h2 y).1 hy with rfl | hy
        · exact hn.1 (by rw [hfy]; exact List.mem_map_of_mem hf)
        · exact hd f (List.mem_cons_of_mem _ hf) (by rw [← hfy]; exact List.mem_map_of_mem hy))
      refine ⟨g1, fun x => ?_⟩
      rw [g2, h2, List.mem_cons]
      rw [or_left_comm, or_assoc]
  obtain ⟨h1, h2⟩ := this es [] hnd List.Pairwise.nil (by simp)
  exact ⟨h1, fun x => by rw [toMap, h2]; simp⟩

end Thot.HatTable
