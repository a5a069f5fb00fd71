import Verif.Util.Assoc
/-!
# The render steps of a configuration (C78)

`Config::with_render_step` and the functions that are built on it: which steps the renderer runs after any sequence of calls.
-/
namespace Verif.Config

/-! ## Model -/

/-- `NamespaceSerialization`, renderer/steps/quick_xml/serialize.rs:48-69. -/
inductive NsSer
  | none_ | local_ | global_ | dynamic
  deriving DecidableEq, Repr

/-- `SerdeXmlRsVersion`, config/renderer.rs:404-412. -/
inductive XmlRsVersion
  | v07 | v08
  deriving DecidableEq, Repr

/-- `RenderStep`, config/renderer.rs:141-209. A namespace is a list of bytes. -/
inductive RStep
  | types
  | serdeXmlRs (version : XmlRsVersion)
  | serdeQuickXml
  | defaults
  | nsConst
  | enumConst
  | prefixConst
  | withNamespace
  | serialize (namespaces : NsSer) (default_ : Option (List Nat))
  | deserialize (boxed : Bool)
  | collectNamespaces
  | contentHelpers
  deriving DecidableEq, Repr

/-- `RenderStepType`, renderer/mod.rs:298-316. -/
inductive StepType
  | types | extraTypes | extraImpls | undefined
  deriving DecidableEq, Repr

/-- The Rust types that are `RenderStep`s of the renderer and can be used as configuration (renderer/steps): those of the
crate that are `Clone`, and the types of the user, told apart by a number. The type of the step is taken to be the same for
all values of a type. -/
inductive Impl
  | types | serdeXmlRs7 | serdeXmlRs8 | serdeQuickXml | defaults | enumConst | withNamespace | serialize | deserialize
  | collectNamespaces | contentHelpers
  | user (id : Nat) (type_ : StepType)
  deriving DecidableEq, Repr

/-- `Box<dyn RenderStepConfig>`: a value of `RenderStep`, or a step that is used directly (config/renderer.rs:233-248); `data`
stands for its fields. -/
inductive Step
  | config (s : RStep)
  | direct (k : Impl) (data : Nat)
  deriving DecidableEq, Repr

/-- `render_step_type` for `RenderStep`, config/renderer.rs:251-266. -/
def RStep.stepType : RStep → StepType
  | .types | .serdeXmlRs _ | .serdeQuickXml => .types
  | _ => .extraImpls

/-- `render_step_type` of the steps themselves, e.g. renderer/steps/types.rs:19-21; for enum_const.rs see lines 15-17. -/
def Impl.stepType : Impl → StepType
  | .types | .serdeXmlRs7 | .serdeXmlRs8 | .serdeQuickXml => .types
  | .enumConst => .types
  | .user _ t => t
  | _ => .extraImpls

/-- `render_step_type` of a boxed step, config/renderer.rs:237-239 and 251-266. -/
def Step.stepType : Step → StepType
  | .config s => s.stepType
  | .direct k _ => k.stepType

/-- `RenderStepType::is_mutual_exclusive_to`, renderer/mod.rs:318-324. -/
def StepType.exclusive (a b : StepType) : Bool := a == .types && b == .types

/-- The `match` in `is_mutual_exclusive_to` for `RenderStep`, config/renderer.rs:329-377, in its order. The types for the
constants of namespaces and prefixes are not `Clone`, so that the comparisons with them (lines 358-360 and 371) never hold. -/
def RStep.matches_ : RStep → Step → Bool
  | .types, .config .types => true
  | .serdeXmlRs _, .config (.serdeXmlRs _) => true
  | .serdeQuickXml, .config .serdeQuickXml => true
  | .defaults, .config .defaults => true
  | .nsConst, .config .nsConst => true
  | .enumConst, .config .enumConst => true
  | .prefixConst, .config .prefixConst => true
  | .withNamespace, .config .withNamespace => true
  | .serialize _ _, .config (.serialize _ _) => true
  | .deserialize _, .config (.deserialize _) => true
  | .collectNamespaces, .config .collectNamespaces => true
  | .types, .direct k _ => k == .types
  | .serdeXmlRs .v07, .direct k _ => k == .serdeXmlRs7
  | .serdeXmlRs .v08, .direct k _ => k == .serdeXmlRs8
  | .serdeQuickXml, .direct k _ => k == .serdeQuickXml
  | .defaults, .direct k _ => k == .defaults
  | .withNamespace, .direct k _ => k == .withNamespace
  | .serialize _ _, .direct k _ => k == .serialize
  | .deserialize _, .direct k _ => k == .deserialize
  | .enumConst, .direct k _ => k == .enumConst
  | .collectNamespaces, .direct k _ => k == .collectNamespaces
  | .contentHelpers, .direct k _ => k == .contentHelpers
  | _, _ => false

/-- `is_mutual_exclusive_to`, config/renderer.rs:225-230 and 310-378. -/
def Step.exclusiveTo : Step → Step → Bool
  | .config s, b => s.stepType.exclusive b.stepType || s.matches_ b
  | .direct k _, .direct l b => k == l || k.stepType.exclusive (Step.direct l b).stepType
  | .direct k _, .config s => k.stepType.exclusive s.stepType

/-- The closure that is passed to `retain` in `Config::with_render_step`, config/mod.rs:223-234, and `retain` itself:
`index` counts the steps, `position` is the place of the first step that is removed. -/
def retain (step : Step) : List Step → Nat → Option Nat → List Step × Option Nat
  | [], _, position => ([], position)
  | x :: l, index, position =>
    if x.exclusiveTo step || step.exclusiveTo x then
      match position with
      | none =>
        let r := retain step l (index + 1) (some index)
        (x :: r.1, r.2)
      | some p => retain step l (index + 1) (some p)
    else
      let r := retain step l (index + 1) position
      (x :: r.1, r.2)

/-- `Config::with_render_step`, config/mod.rs:214-244. -/
def withStep (steps : List Step) (step : Step) : List Step :=
  match retain step steps 0 none with
  | (l, some p) => l.set p step
  | (l, none) => l ++ [step]

/-- `Config::with_render_steps`, config/mod.rs:249-259. -/
def withSteps (steps : List Step) : List Step → List Step
  | [] => steps
  | s :: l => withSteps (withStep steps s) l

/-- `RendererConfig::default`, config/renderer.rs:39-50. -/
def defaultSteps : List Step := [.config .types]

/-- The calls of `with_quick_xml_serialize_config`, config/mod.rs:267-289. -/
def serializeCalls (namespaces : NsSer) (default_ : Option (List Nat)) : List RStep :=
  [.types, .defaults] ++ (if namespaces != .none_ then [.prefixConst] else []) ++
    (if namespaces == .dynamic then [.collectNamespaces] else []) ++ [.nsConst, .serialize namespaces default_]

/-- The calls of `with_quick_xml_deserialize_config`, config/mod.rs:298-305. -/
def deserializeCalls (boxed : Bool) : List RStep := [.types, .defaults, .nsConst, .deserialize boxed]

/-- `with_quick_xml_config`, config/mod.rs:315-323. -/
def withQuickXml (steps : List Step) (namespaces : NsSer) (default_ : Option (List Nat)) (boxed : Bool) : List Step :=
  withSteps (withSteps steps ((serializeCalls namespaces default_).map .config)) ((deserializeCalls boxed).map .config)

/-- `with_serde_quick_xml`, config/mod.rs:326-330; the flags of the optimizer are not part of the model. -/
def withSerdeQuickXml (steps : List Step) : List Step := withSteps steps [.config .serdeQuickXml, .config .defaults]

/-- `with_serde_xml_rs`, config/mod.rs:333-340. -/
def withSerdeXmlRs (steps : List Step) (version : XmlRsVersion) : List Step :=
  withSteps steps [.config (.serdeXmlRs version), .config .defaults]

/-! ## Specification -/

/-- What a step is for. -/
inductive Purpose
  /-- the types themselves, in one of several forms -/
  | types
  | defaults | nsConst | enumConst | prefixConst | withNamespace | serialize | deserialize | collectNamespaces
  | contentHelpers
  | user (id : Nat) (type_ : StepType)
  deriving DecidableEq, Repr

def RStep.purpose : RStep → Purpose
  | .types | .serdeXmlRs _ | .serdeQuickXml => .types
  | .defaults => .defaults
  | .nsConst => .nsConst
  | .enumConst => .enumConst
  | .prefixConst => .prefixConst
  | .withNamespace => .withNamespace
  | .serialize _ _ => .serialize
  | .deserialize _ => .deserialize
  | .collectNamespaces => .collectNamespaces
  | .contentHelpers => .contentHelpers

def Impl.purpose : Impl → Purpose
  | .types | .serdeXmlRs7 | .serdeXmlRs8 | .serdeQuickXml => .types
  | .defaults => .defaults
  | .enumConst => .enumConst
  | .withNamespace => .withNamespace
  | .serialize => .serialize
  | .deserialize => .deserialize
  | .collectNamespaces => .collectNamespaces
  | .contentHelpers => .contentHelpers
  | .user _ .types => .types
  | .user id t => .user id t

def Step.purpose : Step → Purpose
  | .config s => s.purpose
  | .direct k _ => k.purpose

/-- The last of the steps that is for this purpose. -/
def lastFor (p : Purpose) (l : List Step) : Option Step := (l.filter fun s => s.purpose == p).getLast?

/-- The purposes in the order in which they appear first. -/
def firstOrder : List Purpose → List Purpose
  | [] => []
  | p :: l => p :: (firstOrder l).filter (· != p)

/-- Each purpose that appears has one step, the last one that was asked for; they are in the order in which the purposes
appeared first. -/
def Settled (asked result : List Step) : Prop :=
  result.map Step.purpose = firstOrder (asked.map Step.purpose) ∧
  ∀ s ∈ result, lastFor s.purpose asked = some s

/-- The steps that are asked for in two ways that the configuration does not recognise. -/
def Recognised (asked : List Step) : Prop :=
  (∀ d, .direct .enumConst d ∉ asked) ∧ asked.count (.config .contentHelpers) ≤ 1

end Verif.Config
