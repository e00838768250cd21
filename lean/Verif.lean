import Verif.Runtime.Model
import Verif.Runtime.Spec
import Verif.Runtime.Lemmas
import Verif.Runtime.Refine
import Verif.Runtime.Congr
import Verif.Runtime.Props
import Verif.Runtime.Props2
import Verif.Runtime.Blocks
import Verif.Runtime.Heap
import Verif.Terms.Expr
import Verif.Scoped.Model
import Verif.Scoped.Props
import Verif.Scoped.Binding
import Verif.Terms.Model
import Verif.Terms.EvalProps
import Verif.Terms.Alpha
import Verif.Scoped.Equivariance
import Verif.Terms.Rename
import Verif.Terms.Defdata
import Verif.Terms.Subst
import Verif.Terms.BindProps
import Verif.Terms.Beta
import Verif.Terms.Fvs
import Verif.Terms.SynEq
import Verif.Terms.Numbers
import Verif.Objects.Str
import Verif.Objects.Pretty
import Verif.Objects.Ops
import Verif.Objects.ObjInt
import Verif.Objects.Instance
import Verif.Objects.Define
import Verif.Product.Model
import Verif.Product.Independent
import Verif.Product.C27
import Verif.Product.Argsof
import Verif.Product.Need
import Verif.Unify.Model
import Verif.Unify.Props
import Verif.Unify.C32
import Verif.Unify.C33
import Verif.Unify.Termination
import Verif.Unify.Complete
import Verif.Indexed.IndexSet
import Verif.Indexed.CondN
import Verif.Indexed.Desugar
import Verif.Indexed.Named
import Verif.Indexed.Naming
import Verif.Indexed.Gather
import Verif.Llm.Conversation
import Verif.Llm.History
import Verif.Llm.Call
import Verif.Llm.Tools
import Verif.Llm.Blocks
import Verif.Llm.Prompt
import Verif.Llm.Format
import Verif.Llm.Dedent
import Verif.Llm.JsonText
import Verif.Llm.CallText
import Verif.Llm.SignatureText
import Verif.Llm.Tuples
import Verif.Llm.Refs
import Verif.Llm.Recursive
import Verif.Llm.Exec
import Verif.Llm.Repl
import Verif.Llm.Regions
import Verif.Llm.Splice
import Verif.Llm.Nestable
import Verif.Llm.ToolCalls
import Verif.Llm.Callables
import Verif.Llm.Checked
import Verif.Llm.Sources
import Verif.Llm.Encodable
import Verif.Unify.Nested
import Verif.Unify.Canon
import Verif.Indexed.Getitem
import Verif.Indexed.Pointwise
import Verif.Indexed.Jax
import Verif.Indexed.Loops
import Verif.Indexed.Later
import Verif.Indexed.Registry
import Verif.Indexed.Sizes
import Verif.Terms.Trace
import Verif.Terms.Dataclass
import Verif.Terms.Containers
import Verif.Terms.Iter
import Verif.Terms.Calls
import Verif.Terms.Staged
import Verif.Indexed.Shim
import Verif.Indexed.Dist
import Verif.Indexed.DistMethods
import Verif.Indexed.UnbindDist
import Verif.Indexed.Pytree
import Verif.Indexed.Transform
import Verif.Unify.Typeof
import Verif.Unify.Functions
import Verif.Indexed.PyroDist
import Verif.Indexed.Operators
import Verif.Unify.TypedDict
import Verif.Unify.NumTypes
import Verif.Unify.ResultTypes
import Verif.Unify.Bounds
import Verif.Llm.Capture
import Verif.Llm.Methods
import Verif.Llm.Sessions
import Verif.Examples.Sums
import Verif.Examples.Minipyro
import Verif.Examples.Beam
import Verif.Examples.SemiRing
import Verif.Examples.Lambda
import Verif.Examples.Intro
import Verif.Llm.Answer
import Verif.Llm.Images
import Verif.Llm.Feedback
import Verif.Indexed.ShimSites
import Verif.Indexed.Eager
import Verif.Scoped.Syntax
import Verif.Llm.ToolValues
import Verif.Llm.Provider
