/-!
Model of the names of the features and of the interpolation weights of the single word models:
src/stack_dec/StdFeatureHandler.cc and src/stack_dec/SmtModelUtils.cc.

Simplifications: models can be loaded and printed without errors (only the files with the interpolation weights are
modelled); a file is the list of its lines, and a line the list of its fields as values, of an arbitrary type `V` that
is printed and read without loss; the feature of a phrase model is its name and its weight.  Reading a vector past its
end, or a failed `dynamic_cast`, is `none`, as errors are.
-/
namespace Thot.Handler

variable {V : Type}

/-- SmtModelUtils.cc:139-181 `loadSwmLambdas`; the first argument is `none` when the file cannot be opened. -/
def loadSwmLambdas : Option (List (List V)) → Option (V × V)
  | none => none
  | some [] => none
  | some (l :: _) =>
    match l with
    | [a] => some (a, a)
    | [a, b] => some (a, b)
    | _ => none

/-- SmtModelUtils.cc:184-201 `printSwmLambdas`: the contents of the file. -/
def printSwmLambdas (a b : V) : List (List V) := [[a, b]]

/-- `ModelDescriptorEntry`: `statusStr` and `absolutizedModelFileName`. -/
structure Entry where
  status : String
  file : String

/-- The classes of features, with the weight of the direct and inverse phrase model features. -/
inductive Kind (V : Type) where
  | direct (lam : V)
  | inverse (lam : V)
  | other

structure Feat (V : Type) where
  name : String
  kind : Kind V

/-- The members that matter: `featuresInfo.featPtrVec`, `swModelsInfo.featNameVec`, `swModelsInfo.invFeatNameVec`,
`phraseModelsInfo.modelDescEntryVec`. -/
structure Hdl (V : Type) where
  feats : List (Feat V)
  dirNames : List String
  invNames : List String
  entries : List Entry

/-- The files, by name. -/
abbrev Disk (V : Type) := String → Option (List (List V))

/-- StdFeatureHandler.cc:617-691 and 694-752: `createDirectPhrModelFeat` and `createInversePhrModelFeat` with the
insertion of the features that follows (825-840, 891-906). -/
def addModel (disk : Disk V) (dn vn : String) (e : Entry) (h : Hdl V) : Option (Hdl V) :=
  match loadSwmLambdas (disk (e.file ++ ".lambda")) with
  | none => none
  | some (a, b) =>
    some ⟨h.feats ++ [⟨dn, .direct a⟩, ⟨vn, .inverse b⟩], h.dirNames ++ [dn], h.invNames ++ [vn], h.entries ++ [e]⟩

/-- StdFeatureHandler.cc:822-841: the loop over the entries. -/
def addModels (disk : Disk V) : List Entry → Hdl V → Option (Hdl V)
  | [], h => some h
  | e :: r, h =>
    match addModel disk ("pts_" ++ e.status) ("pst_" ++ e.status) e h with
    | none => none
    | some h' => addModels disk r h'

/-- StdFeatureHandler.cc:843-865 and 908-929: the features for lengths and jumps, which use the first phrase model. -/
def addLens (h : Hdl V) : Option (Hdl V) :=
  if h.entries.isEmpty then none
  else some { h with feats := h.feats ++ [⟨"src_phr_len", .other⟩, ⟨"trg_phr_len", .other⟩, ⟨"src_pos_jump", .other⟩] }

/-- What is loaded: nothing (`NONE_DESCRIPTOR`), a descriptor or a prefix. -/
inductive Source where
  | nothing
  | descriptor (es : List Entry)
  | pref (file : String)

/-- StdFeatureHandler.cc:36-54, 74-108, 1017-1087 `loadMonolingualFeats`. -/
def loadMono (s : Source) (h : Hdl V) : Hdl V :=
  match s with
  | .nothing => h
  | .descriptor es => { h with feats := h.feats ++ ⟨"wp", .other⟩ :: es.map fun e => ⟨"lm_" ++ e.status, .other⟩ }
  | .pref _ => { h with feats := h.feats ++ [⟨"wp", .other⟩, ⟨"lm", .other⟩] }

/-- StdFeatureHandler.cc:57-71, 111-117, 809-930 `loadBilingualFeats`. -/
def loadBi (disk : Disk V) (s : Source) (h : Hdl V) : Option (Hdl V) :=
  match s with
  | .nothing => some h
  | .descriptor es =>
    match addModels disk es h with
    | none => none
    | some h' => addLens h'
  | .pref f =>
    match addModel disk "pts" "pst" ⟨"main", f⟩ h with
    | none => none
    | some h' => addLens h'

/-- A handler with nothing loaded, and then both kinds of features, in the order of thot_ms_dec.cc:417-422. -/
def load (disk : Disk V) (lm tm : Source) : Option (Hdl V) := loadBi disk tm (loadMono lm ⟨[], [], [], []⟩)

/-- StdFeatureHandler.cc:606-614 `getFeatureIdx`. -/
def getFeatureIdx (n : String) : List (Feat V) → Nat
  | [] => 0
  | f :: r => if n = f.name then 0 else getFeatureIdx n r + 1

/-- StdFeatureHandler.cc:1121-1139 `printLambdasForModel`: the files after the call. -/
def printLambdasForModel (h : Hdl V) (file dn vn : String) (disk : Disk V) : Option (Disk V) :=
  match h.feats[getFeatureIdx dn h.feats]? with
  | some ⟨_, .direct a⟩ =>
    match h.feats[getFeatureIdx vn h.feats]? with
    | some ⟨_, .inverse b⟩ =>
      some fun f => if f = file ++ ".lambda" then some (printSwmLambdas a b) else disk f
    | _ => none
  | _ => none

/-- StdFeatureHandler.cc:1173-1182 and 1213-1222: the loop over the models. -/
def printLoop (h : Hdl V) : List String → List String → List Entry → Disk V → Option (Disk V)
  | [], _, _, disk => some disk
  | d :: ds, v :: vs, e :: es, disk =>
    match printLambdasForModel h e.file d v disk with
    | none => none
    | some disk' => printLoop h ds vs es disk'
  | _, _, _, _ => none

/-- StdFeatureHandler.cc:1208-1233 `printAligModelLambdas` (and the last part of `printAligModels`, 1142-1205). -/
def printLambdas (h : Hdl V) (tm : Source) (disk : Disk V) : Option (Disk V) :=
  match tm with
  | .descriptor _ => printLoop h h.dirNames h.invNames h.entries disk
  | .pref f =>
    match h.dirNames, h.invNames with
    | d :: _, v :: _ => printLambdasForModel h f d v disk
    | _, _ => none
  | .nothing => none

end Thot.Handler
