import Verif.Model.BNN
import Verif.Model.BNNCost

/-!
# The variables of the TensorFlow graph during repeated `train` calls (`bayesian_neural_network.py`, `base_classes.py`)

Every `train` call builds its network in the default graph, which is never cleared (`bayesian_neural_network.py:401-405`), and samples
all of `tf.trainable_variables()`.  This file follows which variables exist.

Simplifications: variables are numbered in order of creation, a sampler's working copies before its other variables (the order of the
two does not matter, the others are not trainable); a failing sampler construction leaves the variables as they are.
-/

namespace PySGMCMC.BNNGraph
open BNN
open BaseModel (Rows)

/-- A variable created by `get_net`. -/
inductive NetVar where
  /-- `tf.get_variable`, `tf.layers.…(name=…)`: `ValueError` if the name is taken -/
  | named (name : String)
  /-- `tf.Variable`: the name is made unique -/
  | anonymous
deriving DecidableEq

/-- The variables of a graph. -/
structure Graph where
  /-- names taken by `tf.get_variable` -/
  names : List String := []
  nVars : Nat := 0
  /-- `tf.trainable_variables()`, in order of creation -/
  trainable : List Nat := []

/-- Create a variable (trainable by default). -/
def create (g : Graph) : NetVar → Step Graph Nat
  | .named s =>
    if s ∈ g.names then (.error (.value "already exists"), g)
    else (.ok g.nVars, ⟨g.names ++ [s], g.nVars + 1, g.trainable ++ [g.nVars]⟩)
  | .anonymous => (.ok g.nVars, ⟨g.names, g.nVars + 1, g.trainable ++ [g.nVars]⟩)

/-- Create the variables of a network one after the other. -/
def createAll : List NetVar → Graph → Step Graph (List Nat)
  | [], g => (.ok [], g)
  | v :: vs, g =>
    match create g v with
    | (.error e, g) => (.error e, g)
    | (.ok i, g) =>
      match createAll vs g with
      | (.error e, g) => (.error e, g)
      | (.ok is, g) => (.ok (i :: is), g)

/-- The variables of `get_default_net` (`bayesian_neural_network.py:28-69`). -/
def defaultVars : List NetVar :=
  [.named "fc_layer_1/kernel", .named "fc_layer_1/bias", .named "fc_layer_2/kernel", .named "fc_layer_2/bias",
    .named "fc_layer_3/kernel", .named "fc_layer_3/bias", .named "fc_layer_4/kernel", .named "fc_layer_4/bias", .anonymous]

/-- The variables a sampler creates: a trainable working copy of every parameter (`base_classes.py:103`, `tensor_utils.py:93-95`), the
stepsize and `aux` statistics per parameter (`base_classes.py:105-110`; `sghmc.py:126-155`: six, `sgld.py:117-141`: five), none of
them trainable. -/
def addSampler (aux : Nat) (params : List Nat) (g : Graph) : Graph :=
  ⟨g.names, g.nVars + params.length + 1 + aux * params.length, g.trainable ++ List.range' g.nVars params.length⟩

/-- Everything else that `train` needs; `τ` is the rest of the session. -/
structure Outside (D : Nat) (τ H C : Type) where
  /-- the network function on the variables with the given numbers -/
  net : List Nat → (Nat → Tensor Fl) → {N : Nat} → (Fin N → Fin D → Fl) → Fin N → Fl × Fl
  /-- construction of the batch generator and the sampler, and the initializer -/
  build : TrainData D → τ → Step τ H
  next : H → τ → Step τ (Sample × C)
  logError : TrainData D → τ → Except PyErr Unit
  varShape : Nat → List Nat
  varValue : τ → Nat → Tensor Fl

variable {D : Nat} {τ H C : Type}

/-- The world of `train` calls in one graph: `vars` are the variables `get_net` creates. -/
def world (vars : List NetVar) (aux : Nat) (O : Outside D τ H C) : World D (Graph × τ) H C where
  getNet ph w := match createAll vars w.1 with
    | (.error e, g) => (.error e, (g, w.2))
    | (.ok ids, g) => (.ok ⟨ph, fun assign => O.net ids assign⟩, (g, w.2))
  costGraph _ w := (.ok (), w)
  trainable w := w.1.trainable
  buildSampler d w := match O.build d w.2 with
    | (.error e, t) => (.error e, (w.1, t))
    | (.ok h, t) => (.ok h, (addSampler aux d.params w.1, t))
  next h w := match O.next h w.2 with
    | (r, t) => (r, (w.1, t))
  logError d w := O.logError d w.2
  varShape := O.varShape
  varValue w := O.varValue w.2

/-- Successive `train` calls in one graph. -/
noncomputable def trains (cfg : Cfg) (W : World D (Graph × τ) H C) : List (Rows (Fin D) × List Fl) → Bnn D → Graph × τ →
    List (Except PyErr Unit) × Bnn D × (Graph × τ)
  | [], b, w => ([], b, w)
  | (X, y) :: l, b, w =>
    let r := train cfg W (.matrix X) y b w
    let rest := trains cfg W l r.2.1 r.2.2
    (r.1 :: rest.1, rest.2)

end PySGMCMC.BNNGraph
