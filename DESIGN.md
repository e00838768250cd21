# Verification of effectful: design

The code is `BasisResearch/effectful` at the commit in `/repo`. It is read as
text; nothing in `/repo` is run. The properties are in `properties.jsonl`; the
Lean 4 model and proofs are in `lean/Verif`; the status of each property is in
`MANIFEST.json`; mutation tests of the theorems are in `seeded/LOG.jsonl`.

## 1. Method

* Models are shallow and mirror the Python functions branch by branch. Python
  exceptions are values. Loops are folds or structural recursion. Where the
  Python may not terminate, the model takes fuel and the theorems speak about
  all fuels (`∃ n, run n … = some r`).
* Each model definition cites file and lines of the code it models and says
  what was simplified.
* Each group is a directory `Verif/<Group>`. Small models are one file with the
  model, the specification ("What is stated", written without the model's
  helpers), lemmas and property theorems; larger ones have these in separate
  files. Each property theorem is named `Cnn_…`. Beside it there is an
  `example` with a concrete non-trivial case that meets its hypotheses.
* If the code does not have the property, the negation is proved from a
  concrete witness (theorem `Cnn_…_fails`), and what does hold is proved beside
  it, under hypotheses that exclude the witness; the status is then `partial`.
  Findings are listed in section 5.
* Mutation tests: a definition of the model is changed in a scratch copy and the
  build must fail. A failing build shows that some proof depends on what was
  changed. It may be a proof that is brittle rather than a property that is
  violated, so the log is evidence against vacuous theorems, no more; entries
  where the change was meant to be harmless say so.

## 2. Trusted base

* Lean's kernel (4.33.0) and the statement of each theorem.
* Axioms: each theorem depends on at most `propext`, `Classical.choice` and
  `Quot.sound`. No axiom, `sorry`, `native_decide` or `bv_decide` is used.
* The hand translation from Python to Lean. It is not checked mechanically;
  the citations are there so that a reader can check it.
* The Python semantics as the models use it: `dict` keeps insertion order and
  replaces in place; `with` runs the exit on return and on exception;
  `functools.wraps` preserves signatures as seen by `inspect.signature`;
  `threading.local` gives each thread its own attributes.
* Parameters of the models: user code (handler bodies, defaults, tool bodies),
  the LLM, `mypy`, pydantic leaf validators, tensor libraries. They are
  universally quantified functions, so the theorems hold for each behaviour of
  them that the type of the parameter can express.

* Of libraries: `ast.unparse` followed by `ast.parse` gives the same tree and
  puts statements on lines of their own; `json.loads` and the exit status of
  `subprocess.run` as documented;
  code compiled by RestrictedPython does what the source says; Pyro's handler
  stack (C96) goes from the innermost handler out and back, `stop` ends the way
  out, and `replay` puts the `infer` dictionary of the guide in the message.
* Functions of Python's library that are modelled themselves: `Signature.bind`,
  `apply_defaults`, `.args` and `.kwargs` (C102), `base64` (C94),
  `string.Formatter.parse` and `format` of strings (C111), `textwrap.dedent`
  (C112), `json.dumps` and `json.loads` (C114). The compiled models were run on
  random inputs, 80000, 40000, 120000, 60000 and 180000 of them, next to Python
  3.11; the results were the same.

Not modelled: typing details outside the grammar of section 3.8, `jax` /
`numpyro` / `pyro` numerics, `prettyprinter` support, images, network, process
and file handling, weak references and garbage collection, `asyncio` other than
as suspended blocks (C12).

## 3. Properties: model and proofs

### 3.1 Runtime: C01–C13 (`Verif/Runtime`)

Code: `internals/runtime.py` whole, `ops/semantics.py` 20–115, `ops/types.py`
361–374, 507–578.

Model. User programs are a type `Prog`: return, raise, a side effect on an
arbitrary world, an operation call with a continuation for its outcome (so
programs can catch), `with handler(I): P`, `with interpreter(I): P`.
Interpretations `I` are dicts of functions or coproducts of such. Functions
carry the flag "has no parameters", because `_save_args` / `_restore_args`
branch on it. The runtime's own closures (`_save_args(f)`, `_restore_args(f)`,
`_set_prompt(fwd, c, b)`, `handler({fwd: d})(c)`, `lambda: (a, k)`,
`op.__default_rule__`) are constructors of `Clo`, and `run` executes them one
Python statement at a time on a state that holds the thread's interpretation
(a dict) and the world. Operations are `fwd`, `_get_args`, `__apply__` of each
class, and user operations of any class; `Operation.__call__` is modelled with
its three branches.

Specification: a big-step abstract machine with, per operation, a stack of user
functions, plus the current continuation (the rest of the stack) and the
current arguments. No prompts, no closures.

* C01: induction on fuel that the interpretation component of the final state
  equals the initial one.
* C02: lemma on the dict built by the loop of `coproduct`, for keys, order and
  values; plus the behaviour through C03; arguments unchanged in the heap model.
* C03: refinement, both directions, between `run` and the abstract machine, by
  induction on fuel / on the derivation, through a relation between closures
  and stacks.
* C04: in the abstract machine the forwarded arguments are the current ones,
  for handlers that have parameters.
* C05, C06, C07: contextual equivalences, consequences of C03, since coproduct
  is stack append.
* C08: direct, for all states without binding; and for the end of the chain.
* C09: by cases on class depth.
* C10: interleaving machine with a map from thread to interpretation and block
  stack; projection theorem by induction on the schedule.
* C11: `evaluate(t, intp=i)` as a block of raw handlers.
* C12: machine of enter/exit events with saved values; well-nested histories.
* C13: heap model with dict objects and references, refined to a machine that
  captures by value.

### 3.2 Terms, binding and substitution: C14–C20, C30, C31, C72, C73, C84, C97, C102, C105 (`Verif/Terms`)

Code: `ops/semantics.py` 118–226, 286–314; `ops/syntax.py` 388–733,
753–777, 780–890, 1006–1338; `ops/types.py` 414–451.

Model. Expressions: atoms, operations, terms (operation, positional and keyword
arguments), sequences, named tuples, mappings, sets, dataclasses. The binding
structure of an operation is a parameter given by its signature (see 3.3). Fresh
operations come from a counter, so "fresh" is "greater than every operation
created before". `evaluate`, `defdata`, `fvsof` and beta reduction are
functions on this state.

* C14: `evaluate` equals the execution of the postfix code of the expression.
  Exceptions are taken to propagate unchanged; generators turn `StopIteration`
  into `RuntimeError`, which only the model of C97 has.
* C15, C17: alpha-equivalence is equality of nameless (de Bruijn) forms, defined
  independently of renaming; induction on terms.
* C16: soundness for all well-formed expressions, exactness by an invariant on
  the accumulated set when no variable is both free and bound.
* C18: beta reduction against substitution on nameless forms.
* C105 (`Staged`): two substitutions compose (the substitution lemma, on nameless
  forms); an invariant on the value of the first stage (its binders are new or
  come from a replacement) allows the second one.
* C19, C31: mostly negative; what is left is `_partial`.
* C20: exact characterisation of `syntactic_eq`, then the laws from it.
* C30: homomorphism by induction on expression trees, for arbitrary number
  semantics.
* C72: a traced function is its body as a term together with its signature;
  calling it against evaluating the body with the arguments, for arbitrary
  behaviour of operations.
* C73: the registry of term classes as a table that grows with each term made;
  invariants by induction over histories.
* C84: container classes by what their constructors do with items; an exact
  characterisation of the values that evaluate to themselves, by induction on
  values.
* C97 (`Iter`): a heap of iterators; straight-line programs run on objects and
  on terms. The specification counts, for each reading of an iterator, the
  readings before it; both sides are proved equal to it by induction.
* C102 (`Calls`): `Signature.bind` with defaults, `args` and `kwargs` for all
  kinds of parameters, against a direct definition of the value of each
  parameter by its position and name; induction on the parameters. The models
  of C14–C22 take arguments in the form that C102 shows terms to have.

### 3.3 Scopes: C21, C22, C118 (`Verif/Scoped`)

Code: `ops/syntax.py` 21–382, `ops/types.py` 414–451. Scopes are finite sets of
type variables. Proof by set algebra; C22 against a direct specification. C118
has the two kinds of unions of Python's typing, by induction on what is written.

### 3.4 Operations as objects: C23–C26, C86, C108 (`Verif/Objects`)

Code: `ops/types.py` 81–135, 274–359, 459–505, 622–673, 681–695; `ops/syntax.py`
893–1003. Heap with an allocator that reuses addresses; histories of creation,
collection, access, copying and class definition; invariants by induction over
histories. C86 models `define` rule by rule, with the `__dict__` that
`functools.update_wrapper` copies, and calls without handlers. C108: the table of
numbers of `pretty_term` against the position of an operation among the first
calls of its name; an invariant on the table, by induction on the term, for any
layout of the text. prettyprinter is assumed to print arguments in order and to
pass its context on.

### 3.5 Products: C27–C29 (`Verif/Product`)

Code: `internals/product_n.py`. C27: simulation between a component of the
product run and a run of that component alone, for all fuels; C28: state machine
of lazy cells; C29: the argument stack of a call, for the three ways a component
can handle an operation.

### 3.6 Indexed and tensors: C34–C38, C56, C57, C69–C71, C74–C76, C78, C79, C87, C96, C98, C99, C104, C107, C109, C110, C117 (`Verif/Indexed`)

Code: `handlers/indexed.py`; `internals/tensor_utils.py`; `handlers/torch.py`
54–318, 593–722; `handlers/jax/_handlers.py` 29–157, 229–270, `_terms.py` 434–507;
`handlers/pyro.py` 56–432, 527–847; `handlers/numpyro.py` 105–425, 428–1177. Tensors are functions from index
lists, or arrays with an index of names and slices. C34 by extensionality; C36
against an independent numpy-style denotation of indices; C37, C38, C56, C57 by
list permutations and arithmetic. C69 models the index tensors that are made of
slices and `aten.index` on them, against direct selection; C70 models the
construction of ranges, their broadcast, `vmap` over the flat index and the
reshaping, against pointwise application; C71 is against the same denotation of
indices as C36. C74 follows the loops that turn a named observation into a
positional one and its naming, and compares with the broadcast observation; C75
models a distribution as a function of the parameters of each entry, and its
methods as operations on positional parameters. C76 composes the removal of
names, an arbitrary derivative or map of arrays, and the return of the names;
`jit` is a state machine with a cache of signatures. C78 has tables of the
embeddings of distributions, checked by evaluation against tables of
constructors, and distributions as trees of tensors. C79 has tables of operator
methods and Python's dispatch, and goes by induction on expressions. C87 is C37
and C70 for jax, where values are evaluated before names are bound. C96 is a state
machine of messages on Pyro's stack with fuel for nested statements; the theorems
compute the state after a statement for any stack. C98 computes the shapes of
`to_event`, `expand` and `log_prob` with and without the dimensions of names, by
induction on the nesting of `to_event`. C99 relates the parameters before and after
`unbind_dims` and `bind_dims` one by one, with the arrays of C37 and the binding of
parameters of C75. C104 has a relation of containers of the same structure, proved by
induction on the nesting, and the arrays of C87. C107 composes C70, C37 and C87: programs of any
depth compute what loops over the names compute. The two libraries are instances
of one interface (`Good`), whose fields are the statements of these claims
together with an invariant of tensors (each name on one dimension for torch,
nothing for jax); then one induction on programs serves both. C109 adds variables:
running a program and evaluating its term are one function, and the invariant of
its induction is that the term computes, for all later values, the loops of the
program. New names are an injective supply; renaming is by a permutation, so that
the loops of the renamed program are those of the program at permuted values. C110
is a state machine with the table of `functools.cache`; its invariant relates the
table and the operations made so far, and states that are reached later extend it. C117
has expressions with distributions whose parameters may be unknown; that calls and
evaluation commute follows from a characterisation of the calls that are computed.

### 3.7 LLM handlers: C40–C55, C58–C66, C81, C82, C85, C93–C95, C101, C111, C112, C114–C116, C119, C120 (`Verif/Llm`)

Code: `handlers/llm/completions.py`, `template.py`, `encoding.py`,
`evaluation.py`. The language model, tools, codecs and `mypy` are parameters.

* `Conversation`, `History`, `Call` (C40–C43, C53): template calls with
  histories as insertion-ordered maps, nested calls, tool rounds and retries;
  induction over rounds and attempts.
* `Checked` (C101): a whole call of a template with `exec_code`, from replies to
  decoding, type checks, retries and execution, as a list of events; the parser,
  checker, compiler and the language model (any function of the events so far)
  are parameters. A language with one variable serves for the counterexamples,
  and its checker is proved right about it.
* `Answer` (C93): what a single reply means, and that the result of a template is
  that of its last reply.
* `Tools` (C44, C52, C58): `collect_tools`, self-offering, `LexicalReaders`.
* `Blocks` (C45), `Prompt` (C47, C55), `Tuples` (C46), `Refs` (C48): structural
  induction on JSON, prompt segments and types. References are resolved with
  fuel; the result exists for some fuel iff the definitions used are accessible.
* `Format` (C111): CPython's parser of format strings and its formatting of
  strings, character by character. The parser is proved inverse to writing a list
  of characters and fields; specifications of strings are a structure with six
  optional parts and a relation that says how a text is laid out. Both functions
  were compared with Python's on 120000 random inputs.
* `Dedent` (C112): `textwrap.dedent` line by line, with the loop over the indents;
  its result is characterised by a relation on lines. Compared with Python's on
  60000 random texts.
* `JsonText` (C114): CPython's encoder and scanner of JSON, character by
  character; the grammar is an inductive relation between values and texts, and
  the scanner is proved sound and complete for it. Compared with Python's on
  180000 random texts.
* `Provider` (C120): the options of the provider, through CPython's `bind_partial`
  and the keyword arguments of the calls.
* `ToolValues` (C119): tools as arguments and results, with the contexts of C63.
* `CallText` (C115): `ToolCalls` and `JsonText` put together, so that calls are
  decoded from and encoded to text.
* `SignatureText` (C116): the signature in the schema for synthesized functions;
  how types are written in Python is a separate inductive relation.
* `Recursive` (C54), `Regions` (C49, C59), `Nestable` (C62): loops over
  signatures, diagnostics and statements.
* `Exec`, `Repl` (C50, C51): code is a tree of reads and writes on identified
  dicts, so that functions keep the globals they were defined in; a ghost log
  of writes is what the theorems are stated with.
* `Splice` (C60, C61): labelled trees; breadth-first walk with a queue; positions
  are any that satisfy `Laid`.
* `ToolCalls` (C63): decoding, `Signature.bind` by keyword, encoding.
* `Callables` (C64): decoding of synthesized functions, with a log of what was
  parsed, checked and executed.
* `Sources` (C65): `linecache` entries under histories of decoding and freeing,
  where addresses may be used again; invariant by induction over histories.
* `Images` (C94): base 64 as CPython decodes it, character by character.
* `Feedback` (C95): texts of feedback messages; the exception that is being handled is a parameter of what
  `traceback.format_exc()` gives, and tenacity calls `before_sleep` after its `except` block. The facts about a run are
  proved by induction on fuel, as a list of requests with what is between two of them.
* `Encodable` (C66): structural induction on types.
* `Capture` (C81): frames have, besides what the code reads, the true variables
  of the enclosing calls; `Runs` says which stacks Python has when the code of a
  place in the text runs. Induction on `Live` for the walk; qualified names are
  split at shared parts.
* `Methods` (C85): attribute reads over tables of templates and instances;
  invariant by induction over histories of events.
* `Sessions` (C82): a tree of actions over a heap of dicts and contexts. The
  invariant relates the sessions given out to the calls; for contexts, all that
  is below the numbers at the start is only changed by assignments outside of
  sessions.

### 3.8 Types: C32, C33, C67, C68, C77, C80, C83, C100, C103, C106 (`Verif/Unify`)

Code: `internals/unification.py` 204–326, 383–619, 656–1110, 1168–1221;
`ops/semantics.py` 229–283; `ops/types.py` 377–412; `ops/syntax.py` 389–393,
504–515, 668–670, 1006–1367. Grammar: type
variables, nominal types with arguments over a class hierarchy, tuples,
callables, unions. C32 by induction on the concrete type; C33 by well-founded
orders on types, and infinite runs for the counterexamples. C67 (`Nested`) by
induction on values, against a typing relation. C68 (`Canon`) has a grammar of
its own with class definitions; an inductive predicate for canonical types. C77
(`Typeof`) composes C32 along expressions: subtypes are a relation with fewer
rules than the matching of C32, and for exact types the two agree. C80
(`TypedDict`) compares unification with the values of types and the edits that
types allow; two rules of the code can be switched off, to say of a run that it
does not use them. C83 (`NumTypes`) applies the type rule of C77 to the
signatures of number terms; an inductive predicate gives the type of a program,
and the classes of the results of Python's arithmetic are a hypothesis. C100
(`Functions`) has all kinds of parameters with `Signature.bind`; the loop over a
signature is a fold of `unify` over the pairs compared, to which C32 applies.
C103 (`ResultTypes`) adds literals, bounds, `NewType` and the two kinds of
unions, and the search of `functools.singledispatch`; inductive predicates say
which annotations stand for a class and which values they describe. C106
(`Complete`) is the converse of C32: an inductive relation with one rule for each
way in which a type fits; success by induction on it, with the termination of C33
for the alternatives that fail, and on types without variables its converse by
induction on the run. There the order of the members of a union does not matter,
so comparing unions as lists in the model loses nothing.

### 3.9 Example programs: C88–C92, C113 (`Verif/Examples`)

Code: `docs/source/lambda_.py`, `docs/source/readme_example.py`, `docs/source/minipyro.py`,
`docs/source/beam.py`, `docs/source/semi_ring.py`, `docs/source/introduction.ipynb`. C88 models the
handlers of `add` rule by rule, with `fwd` and re-entry; each rule is sound for
the value, and the sum of two normal forms is computed by insertion. Equal
values give equal multisets of variables, hence equal sorted lists. C89 runs
program trees under a stack of handlers, with the second call that a plate makes;
statements about traces are by induction over the bound on calls, the handlers
passed and the program, against the calls that the program itself sees. C90
follows the states of the handlers along a path of choices; the rounds of the
search are a relation, with the heap as its documentation has it. C91 compares an
evaluator that follows the handlers with a denotation; the laws of addition are by
induction over types. C92 uses that evaluation leaves no binders in first-order
expressions, so that installing a handler is a substitution. C113 treats the rules
of the introduction as C88 does those of the readme: the sum of two normal forms
is computed by induction on the second.

## 4. What cannot be expressed

Numerical agreement of tensor handlers with torch/jax/numpyro, and the content
of LLM answers, are outside the model: they are properties of the external
libraries.

## 5. Findings

Where the code lacks a property; each is a theorem of the name given, from a
concrete witness. What does hold is in the other theorems of the same property.
These are facts about the models; the code was not run, so each should be
confirmed on the code before it is acted upon.

| Theorem | Code | Finding |
|---|---|---|
| `C04_fwd_nullary_fails` | runtime `_save_args` | `fwd()` in a handler without parameters forwards the arguments of an enclosing handler call |
| `C04_fwd_to_nullary_fails` | runtime `_restore_args` | forwarding arguments to a handler without parameters fails |
| `C06_interpreter_unit_fails` | runtime `interpreter` | the empty interpretation is not a unit of `interpreter` blocks (handlers given raw do not save arguments) |
| `C08_fwd_outside_apply_fails` | types `Operation.__call__` | `fwd()` outside handlers goes to a handler of `apply`, if there is one |
| `C08_fwd_in_inner_default_fails` | runtime | `fwd()` in the default of another operation runs the continuation of the handler that called it |
| `C09_apply_depth_two_fails` | types `__call__` | for a subclass of a subclass of `Operation` (as `Template`) a handler of `Operation.__apply__` gets the intermediate class's apply instead of the operation |
| `C11_fwd_in_intp_fails` | semantics `evaluate` | `fwd()` in handlers given by `intp=` does not have the current arguments |
| `C12_overlapping_blocks_fails` | runtime `interpreter` | with suspended generators a handler stays installed after all blocks are closed |
| `C14_mapping_merged_keys_fails`, `C14_range_fails`, `C14_dataclass_init_false_fails`, `C14_sets_not_evaluated_fails` | semantics `evaluate` | entries are lost when keys become equal; `range` and dataclasses with `init=False` fields cannot be rebuilt; terms in sets are not evaluated |
| `C16_free_and_bound_fails`, `C16_order_dependent_fails`, `C16_values_fails` | semantics `fvsof` | a variable that is free in one place and bound in another is lost, depending on the order of arguments; operations as values are not reported |
| `C17_operations_as_data_fails`, `C17_set_of_variables_fails` | syntax `defdata` | operations that are data in the body are renamed though not bound, as `fn` in `deffn((fn, x()), x)`; bound variables given in a set are renamed in the scope but not in the set |
| `C105_simultaneous_fails`, `C105_order_fails` | `evaluate` | handlers for variables are not applied to what other handlers return: `{x: y(), y: z()}` at once turns `fn(x(), y())` into `fn(y(), z())`; in stages the order matters |
| `C18_capture_fails`, `C18_self_application_fails` | syntax `deffn` call | calling a `deffn` term captures free variables of arguments |
| `C19_too_few_fails`, `C19_too_many_fails` | syntax `deffn` call | too few arguments give an open term, extra ones are ignored |
| `C20_symmetric_fails`, `C20_interpretation_used_fails`, `C20_nan_fails` | syntax `syntactic_eq` | a list of characters equals a string but not conversely; handlers of `__eq__` of number terms are used; NaN |
| `C24_names_distinct_fails`, `C24_opaque_fails` | syntax printing | an operation named `x!1` prints like the second operation `x`; operations inside other values are printed by their own names |
| `C25_diamond_fails`, `C25_stale_fails` | syntax `ObjectInterpretation` | in a diamond the merged table differs from the MRO; methods of a class whose creation raised are given to the next class |
| `C26_copy_fails`, `C26_underscore_fails`, `C26_same_class_name_fails`, `C26_classmethod_super_fails` | types method operations | a copy of an instance has the operation bound to the original; the key on the instance is the same for `A` with `b_c` and `A_b` with `c`, and for a base class of the same name; `super().f` of class methods gives the subclass's operation once that was accessed |
| `C27_*_fails` (eight) | `product_n` | components are not independent: calls of operations that only another component handles and `fwd` give terms of internal copies of operations; `apply` handlers get such copies or cause endless recursion; a failure of another component raises; operations no component handles get the product as argument; effects of one component change order |
| `C28_reentrant_fails` | `product_n` | a component that requests itself is computed twice |
| `C29_apply_fails`, `C29_operation_included_fails`, `C29_nested_fails` | `product_n.argsof` | the first argument is missing for an analysis given by an `apply` handler; the operation is included if no component handles it; a handler called by a handler gets the outer arguments |
| `C30_comparison_fails` | syntax number terms | `x() < 2.0` at `x = 1` gives `NotImplemented` |
| `C31_hash_fails`, `C31_dict_fails` | syntax number terms | equal terms have different hashes |
| `C32_variable_fails`, `C32_subclass_fails`, `C32_order` | unification | too much is accepted: a type variable on the right is accepted against an existing binding without being bound, and `unify(A, B)` succeeds for `class A(B)` because `canonicalize` erases `A`; for `x: T, y: T` acceptance depends on the argument order |
| `C106_any_fails`, `C106_union_fails`, `C106_order_fails`, `C106_tuple_fails` | `_unify_union`, `_unify_generic` | too little is accepted: `list[int]` rejects an argument of type `Any` although `int` accepts it; `T \| int` rejects `int`, since its two members give different unifiers; `list[T]` accepts `list[int] \| list[bool]` but not `list[bool] \| list[int]`; `Sequence[T]` rejects `tuple[bool, int]`, which fits `Sequence[int]` |
| `C33_occurs_fails`, `C33_disjoint_fails`, `C33_swap_fails`, `C33_unify_fails` | unification | no occurs check: `substitute` or `unify` never ends |
| `C34_no_arguments_fails`, `C34_empty_entry_fails` | indexed `IndexSet` | `union()` raises; with an empty entry put in later `union(a, a)` is not `a` |
| `C35_no_match_fails`, `C35_second_name_fails`, `C35_ranks_fails` | indexed `cond_n` | a case in no index set gives the first value; only the first name counts; ranks misaligned |
| `C37_repeated_fails` | torch `bind_dims` | a name with two dimensions cannot be bound |
| `C38_duplicates_fails`, `C38_rank_fails` | pyro `Naming` | a name given twice names one dimension; with too few dimensions event dimensions get names |
| `C40_nested_fails` | completions | a template call of one agent inside of a tool of another does not get into its own agent's history |
| `C42_retry_fails` | completions retry | if one of several tool calls of a message cannot be decoded, the message is sent back with an answer to that call only |
| `C44_collision_fails`, `C44_raising_fails` | completions `collect_tools` | `name__method` collides with a bound name; a raising property breaks collection |
| `C45_text_fails`, `C45_unhashable_fails` | encoding | the JSON syntax around text-shaped objects is lost; unhashable `type` raises |
| `C46_extra_fails`, `C46_long_fails`, `C46_extra_field_fails`, `C46_short_fails` | encoding tuples | extra items are accepted though the schema forbids them; a tuple that is too short is encoded |
| `C48_recursive_fails`, `C48_siblings_fails`, `C48_property_fails` | encoding `_inline_refs` | endless on recursive schemas; siblings of `$ref` dropped; a property named `$defs` is lost and one named `$ref` makes it raise |
| `C50_deleted_fails`, `C50_guards_fails` | evaluation restricted `exec` | deletions not copied back; names such as `getattr` shadowed |
| `C51_prior_fails` | evaluation `ReplSession` | `prior_snippets` lists raising snippets, against its docstring |
| `C51_later_fails`, `C51_raising_fails`, `C51_deleted_fails` | evaluation `ReplSession` | under the restricted provider functions do not see names bound by later snippets, bindings before a raise are lost, deletions undone |
| `C51_chain_fails` | evaluation `ReplSession` | a `ChainMap` seed is changed (documented) |
| `C52_agent_fails` | template | a method of an `Agent` is offered to itself |
| `C54_param_fails` | template `infer_annotations` | `IsRecursive` on a parameter is never rejected (the check looks at `Parameter` objects) |
| `C55_expression_fails`, `C55_class_fails` | template | `{x + 1}` is accepted at definition if `x` is a parameter; class methods are not validated |
| `C55_static_fails`, `C81_static_fails`, `C81_static_module_fails`, `C81_class_fails` | `Template.define` of static and class methods | it is called from `ops/types.py`, whose globals are captured in place of the template's module: the module's tools are not offered, and a static method whose prompt has a name of the module is rejected with `TypeError` |
| `C56_keeps_name` | indexed `gather` | the name is not removed, against the docstring |
| `C58_alias_fails`, `C58_agent_fails` | completions `LexicalReaders` | `AssertionError` for a tool with two names; agents with a schema are exposed |
| `C59_missing_fails`, `C59_killed_fails` | evaluation `_mypy_check_region` | without mypy, or if mypy is killed by a signal, every check passes |
| `C60_decorator_fails`, `C60_repl_decorator_fails` | evaluation splicing | errors on decorators of the first generated statement are outside of the region |
| `C61_drift_fails` | evaluation `_find_def_at_lineno` | with changed source another definition is taken for the template's |
| `C62_block_fails` | evaluation `scan_non_nestable` | star imports in `if`/`try` blocks are accepted |
| `C63_name_fails`, `C63_other_fails` | encoding `_serialize_tool_call` | encodes the tool's own name, decoding uses the context's: not found, or another tool |
| `C63_positional_fails`, `C63_variadic_fails`, `C63_kwargs_fails` | encoding `_validate_tool_call` | tools with positional-only or variadic parameters are offered but cannot be called as described |
| `C119_outside_fails`, `C119_object_fails` | encoding `_validate_tool` | whatever the context has under the name is decoded as the tool: another tool, or an object that is no tool, without an error |
| `C120_reserved_fails` | completions `LiteLLMProvider` | options named `messages`, `tools`, `response_format`, `anchor`, `env` or `response_type` are accepted; then every call of a template raises `TypeError` |
| `C64_decorated_fails`, `C64_unannotated_fails` | encoding callables | a decorated function may have another signature than the one checked; parameters without annotations are accepted though the documentation requires them |
| `C64_none_fails` | encoding callables | nothing can be decoded for `collections.abc.Callable[[…], None]` |
| `C65_reused_fails` | encoding callables | file names are made of `id(encoded)`, so a function may be encoded as the source of a later one |
| `C65_before_fails`, `C65_separator_fails` | encoding callables | imports and helpers before the function are not encoded; a form feed before the function shifts its source |
| `C66_metadata_fails` | unification `TypeEvaluator` | the metadata of `Annotated` is put into one tuple, where nobody looks for it |
| `C67_typed_lost` | unification `nested_type` | a list of dicts with string keys has no element type |
| `C68_order_fails`, `C68_phantom_fails`, `C68_protocol_fails` | unification `canonicalize` | arguments of a generic class are given to the base in order of occurrence, not of declaration; `TypeError` for unused parameters and for generic protocols |
| `C68_siblings_fails` | unification `canonicalize` | classes with a common base other than `object` become equal |
| `C69_later_slice_fails`, `C69_two_slices_fails` | torch `torch_getitem` | a slice after a name gives extra dimensions of size 1 (`x[i(), :2]` has shape `[2, 1]`); two slices come out transposed |
| `C69_negative_start_fails`, `C69_negative_stop_fails`, `C69_beyond_fails` | torch `torch_getitem` | slices with bounds from the end select wrong entries or raise; slices beyond the end raise |
| `C71_jax_none_fails`, `C71_jax_ellipsis_fails`, `C71_jax_raises_fails` | jax `sizesof` | with `None` or `...` in the index of an array that has names the size of another dimension is taken, or there is an `IndexError` |
| `C72_positional_only_fails`, `C72_union_fails`, `C72_keyword_fails`, `C72_default_fails` | syntax `trace` | functions with positional-only parameters, or parameters annotated `X \| Y`, with a type variable or a string, cannot be traced; `KeyError` for an ordinary parameter given by keyword; defaults are lost |
| `C73_subclass_fails`, `C73_builtin_fails` | syntax `defdata` | after a term of a base dataclass, terms of a subclass are not instances of it; callable or iterable dataclasses get terms without fields |
| `C73_slots_fails`, `C73_class_default_fails` | syntax `_DataclassTermMeta` | fields in slots or with `init=False` and a default cannot be read from the value |
| `C74_rank_fails`, `C74_mask_fails` | pyro `PyroShim` | an observation with more dimensions than the distribution gets its names on the wrong dimensions; a mask may be applied along another dimension |
| `C75_rank_fails`, `C75_value_rank_fails` | numpyro `_DistributionTerm` | with parameters or values of fewer dimensions than the batch, named dimensions are broadcast against those of the batch |
| `C75_enumerate_fails`, `C75_entropy_fails` | numpyro `enumerate_support`, `entropy` | the first name is given to the dimension of the support; the entropy has no names |
| `C75_expand_fails` | numpyro `expand` | does nothing if all parameters are numbers; `AssertionError` for parameters of fewer dimensions |
| `C117_number_fails` | numpyro `_DistributionTerm`, jax `is_eager_array` | with a Python number as the argument, `log_prob` is never computed, although numbers are accepted as parameters: the call stays a term |
| `C118_mixed_fails`, `C118_typing_fails` | syntax `Scoped.__class_getitem__` | only the union is checked, not its members: `Scoped[A \| int]` and `Scoped[Union[int, str]]` are accepted, with classes as members of the scope; `Scoped[int \| str]` raises `TypeError` |
| `C76_jit_fails` | jax `jit` | after a call with another signature, a cached function returns the names of the other call |
| `C76_vmap_out_dims_fails` | torch `vmap` | with `out_dims`, the name is given to another dimension |
| `C76_vjp_order_fails` | torch `vjp` | a cotangent whose names are in another order is transposed silently |
| `C76_argnums_fails`, `C76_jvp_fails` | torch `grad`, `jacfwd`, `jvp` | several `argnums`, or several results, raise |
| `C76_repeated_fails` | torch `vmap`, `jacfwd`, `vjp` | a result, argument or cotangent with two dimensions of one name raises RuntimeError |
| `C77_unchecked_fails`, `C77_mixed_fails`, `C77_callable_fails` | `typeof` | arguments are not looked at if the result has no type variable; a list with items of several types agrees with any type of lists; parameters of functions are compared in the wrong direction |
| `C32_bound_fails`, `C32_bounded_fails`, `C77_bound_fails` | `_unify_typevar` | bounds of type variables are not checked: with `f[T: int](x: T) -> T` the type of `f(B())` is `B`; an argument whose type is an unsolved variable with the bound `int` is rejected where `int` is expected |
| `C77_subclass_fails` | `typeof` | the type of `ident(A())` is the base of `A` |
| `C78_student_fails` | pyro `StudentT` | the term of `StudentT(df, loc, scale)` is `StudentT(loc, scale)`: the location becomes the degrees of freedom |
| `C78_wishart_fails` | pyro `Wishart` | the Cholesky factor is given as the covariance matrix |
| `C78_absent_fails`, `C78_nested_fails` | pyro `bind_dims` | a name that the distribution, or a distribution inside it, lacks is a `KeyError`; for tensors it is ignored |
| `C79_mod_fails` | torch terms, `%` | terms call `torch.fmod`, tensors `remainder`: `x % 3` at -1 gives -1 and not 2 |
| `C80_absent_fails` | `_unify_typeddict` | a `NotRequired` field that the other type does not declare is accepted, though values may have it with another type |
| `C80_readonly_fails` | `_unify_typeddict` | a field that is `ReadOnly` in the subtype is accepted as mutable; setting it breaks a third type that the subtype stands for |
| `C80_canonical_fails`, `C80_alias_fails` | `canonicalize` of `TypedDict` | one field such as `list` makes all fields lose `ReadOnly`, and `Datum[int]` lose its argument: it accepts `str` |
| `C80_mapping_fails` | `_unify_mapping_typeddict` | a `TypedDict` is accepted as `MutableMapping[str, int]`, which may delete its keys |
| `C80_recursive_fails` | `canonicalize` of `TypedDict` | recursive typed dictionaries never end (`RecursionError`) |
| `C81_returned_fails`, `C81_lost_fails` | `Template.define` | a template in a function whose encloser has returned does not see the encloser's variables, nor those of functions further out; names fall through to the module |
| `C81_name_fails` | `Template.define` | a caller with the encloser's name (another function, a recursion, a class body) is taken for it |
| `C81_helper_fails` | `Template.define` | called through a function of another module, that module's globals are captured, not those of the function |
| `C82_listing_fails` | `PythonRepl`, `Template.tools` | reading `template.tools` outside of a call puts a copy of all values into the template's context for good, so later changes of globals are hidden |
| `C82_leak_fails` | `PythonRepl`, `Template.tools` | read in a call before the first round, it makes what the session assigns stay in that template's context after the call |
| `C82_stale_fails` | `ReplSession` | globals that tools change during a call keep their old values in the call's context |
| `C83_sound_fails`, `C83_minus_fails` | `_NumberTerm` | `self` has no annotation, so `x() + 1` of a float is an `int` term and an `Integral`; `int / int` is an `int`, `bool + bool` and `-bool` are `bool` |
| `C83_branch_fails` | `_NumberTerm` | `if_then_else(c(), x(), x() + 1)` raises `TypeError` for a float `x` |
| `C84_counter_fails`, `C84_grows_fails` | `evaluate` of mappings | a `Counter` becomes a `Counter` of its items, nested one level deeper by each evaluation, so also by each enclosing term |
| `C84_chain_fails` | `evaluate` of mappings | a `ChainMap` becomes one around a tuple; reading a key raises `TypeError` |
| `C84_constructor_fails` | `evaluate` of mappings, sequences | `IndexSet`, `range` and arrays raise `TypeError`, so no term can have them as arguments |
| `C84_deque_fails`, `C84_views_fails` | `evaluate` of sequences, views | a `deque` loses its maximal length; `items()` with an unhashable value raises `TypeError` |
| `C26_twice_fails` | `Operation.__set_name__` | an operation with a second name in a class, or in a second class, fails with `AssertionError`; so does every `dataclass(slots=True)` with operations as methods |
| `C26_rebuilt_fails` | `Operation.__get__` 476-497 with `evaluate` of dataclasses | calling a method operation of a dataclass instance (or of a list/dict subclass) without a handler gives a term of a fresh operation, bound to a rebuilt copy of the instance: a handler for `inst.f` does not apply to the term `inst.f(5)` when it is evaluated later, and two calls give terms of different operations |
| `C85_free_fails` | `Template.__get__` | on instances with free variables, or without `__dict__`, and for templates assigned to a class later, reading a template raises `AttributeError` |
| `C85_index_fails` | `Template.__get__` | a template without parameters as an attribute of a class raises `IndexError` |
| `C85_class_fails` | `Template.__get__` | each read on the class adds a map to the template's context, in which the first parameter is `None` |
| `C85_copy_fails` | `Template.__get__` | a copy of a used agent has templates with the `self` and the history of the original |
| `C85_system_fails` | `LiteLLMProvider` | an agent's calls all send the system prompt of the template that was called first |
| `C86_union_fails` | `Operation.define` | `defop(int \| str)` raises `AttributeError` |
| `C86_nameless_fails`, `C86_builtin_fails` | `Operation.define` | operations of partials, callable instances and builtins such as `max` raise `TypeError` or `ValueError` where a term should result |
| `C86_classmethod_name_fails` | `_define_classmethod` | `name=` is ignored |
| `C86_copy_register_fails` | `Operation.define` | `register` of a copy of a single-dispatch operation changes the original, not the copy |
| `C86_copy_method_fails`, `C86_copy_get_fails` | `Operation.define` | a copy of a method operation keeps `_name_on_instance`: in a class body it raises `AssertionError`, put into a class later it may be the original |
| `C107_repeated_fails` | torch `bind_dims` in programs | `bind_dims(x[a(), a()], a)` raises, where the loop over `a` and jax give the diagonal (as C37_repeated_fails); with this exception torch and jax programs compute the same |
| `C108_value_fails`, `C108_list_fails` | `pretty_term` | bound variables and other operations that are values are printed without numbers, so that `lam(x, lam(x', x()))` and `lam(x', lam(x, x()))` have one text if `x` and `x'` have one name; terms in a list are numbered each for itself, so that `[x(), x'()]` and `[x(), x()]` have one text |
| `C108_mark_fails`, `C108_str_fails` | `pretty_term` | an operation named `x!1` prints like the second operation `x`; the numbers are not those of `str`: `x(x'())` is `x(x!1())` in one and `x!1(x())` in the other |
| `C109_capture_fails` | `bind_dims` of a term | if `x()` is known to be `B[i()]` then `bind_dims(x(), i)` is the array `B`; if `x` is given this value when the term is evaluated, the result is `B[i()]`, as the bound name was renamed: when a value is given matters if it uses bound names |
| `C109_number_fails` | `_register_torch_op`, `_register_jax_op`, `_partial_eval` | `f(i()) + B[i()]`, and `bind_dims` of it, stays a term although nothing is unknown: `f(i())` has no sizes, and as an argument it is neither a tensor nor a name. (`_bind_dims_array._evaluate` in jax computes the arguments and does not use them) |
| `C110_torch_fails` | `_torch_function` | a handler of the operation of `torch.add` does not see `torch.add(a, b)` for tensors `a`, `b`: torch calls `__torch_function__` for terms only. The operations of `effectful.handlers.jax.numpy` see such calls |
| `C110_update_fails` | `_IndexUpdateRef.set` | `x.at[k].set(v)` makes a function, and so an operation, each time: two terms built by the same line are not equal (`syntactic_eq` is false), and no handler can be given for this operation. So it is with `grad`, `jacfwd`, `jacrev`, `hessian`, `jvp` and `vmap` |
| `C110_memory_fails`, `C110_memory_torch_fails` | `functools.cache` on `_register_jax_op`, `_register_torch_op` | each run of such a line leaves one more operation and its function, with all that the function refers to, in the table, for ever; for torch also if nothing is unknown |
| `C87_other_names` | jax `bind_dims` | an array without named dimensions is returned as it is for any names, while otherwise a missing name leaves a term |
| `C88_opaque_fails` | `lambda_.py` | `sort_add` orders variables only: `f(x) + y` and `y + f(x)` have different normal forms |
| `C89_plate_obs_fails`, `C89_observed_fails` | docs minipyro `Plate.do_sample` | the second call of `sample` leaves out `obs`: an observed site that a plate expands is sampled |
| `C89_seed_fails` | docs minipyro `NativeSeed.set_rng_seed` | ends with `fwd()`, and the default raises, so that `seed` raises always |
| `C89_store_fails` | docs minipyro `NativeParam` | `initial_store or {}`: a given empty store is not used |
| `C89_repeat_fails` | docs minipyro `elbo` | a name that is sampled twice counts once |
| `C90_ends_fails` | docs beam `beam_search` | expanded candidates stay in the beam: if no path has a positive score (log-probabilities, or a program without scores), the first candidate is never replaced and the search does not end |
| `C90_distinct_fails` | docs beam `beam_search` | the beam can hold the same candidate several times |
| `C91_nested_fails`, `C91_let_fails` | docs semi_ring `eager_sum` | a `Sum` over a dictionary is evaluated before the outer `Sum` or `Let` binds its variables, meets a term and raises `AttributeError` (`items`) |
| `C91_pattern_fails` | docs semi_ring `vertical_fusion` | the pattern is for `Dict(k(), e)`, but entries are pairs, `Dict((k(), e))`: it never fires, and the test for it passes without fusion |
| `C91_fused_fails` | docs semi_ring `vertical_fusion` | the fused body binds the key variable of the second sum to the value of the first |
| `C92_constant_fails`, `C92_dropped_fails` | docs lambda_ `eta_lam` | drops `Lam(x, b)` for `b` if `b` is without `x` (this is no eta reduction), so that constant functions cannot be applied |
| `C113_dead_fails`, `C113_order_fails`, `C113_third_fails` | introduction.ipynb `associative_commutative_add` | the pattern `Term(mv, (), ())` never matches, since keyword arguments are a mapping: `(1 + x) + y` and `(1 + y) + x` have different values |
| `C113_other_fails` | introduction.ipynb `associative_add` | the pattern `Term(_, (a, b), {})` does not mention `add`: `x + f(2, 3)` becomes `5 + x` |
| `C93_empty_fails`, `C93_empty_retry_fails` | llm `call_assistant` | an empty answer of a template that returns `str` raises `AssertionError`, which `RetryLLMHandler` does not retry |
| `C93_reasoning_fails` | llm `call_assistant` | if the text is empty, the reasoning text of the model is returned as the answer |
| `C93_unboxed_fails` | llm `call_assistant` | types of strings other than `str` itself (`Annotated[str, …]`, subclasses) need a boxed answer |
| `C94_plain_fails` | llm `_validate_image` | a data URI without `;base64` is decoded as base 64 |
| `C94_corrupt_fails` | llm `_validate_image` | base 64 is decoded without `validate=True`: foreign characters are skipped, text after the padding is dropped |
| `C94_again_fails` | llm `_validate_image` | an `Image` itself is not valid for `Encodable[Image]` |
| `C95_traceback_fails` | llm `RetryLLMHandler._before_sleep` | `include_traceback` calls `traceback.format_exc()` when the error is not being handled any more: the feedback says `NoneType: None`, or has the traceback of an exception that the caller of the template is handling |
| `C95_base_fails`, `C95_encoding_fails` | llm `call_tool` | `catch_tool_errors` has no effect for classes outside `Exception` and for errors when the result of a tool is encoded |
| `C95_own_id_fails` | llm `_make_message`, `append_message` | a reply with the id of an earlier message takes its place in the history |
| `C96_direct_fails` | pyro `PyroShim._pyro_sample` | `pyro_sample(…)` called under a shim runs its handlers twice: the call of `pyro.sample` in its body has no status and is dispatched to `pyro_sample` again |
| `C96_commute_fails` | pyro `PyroShim._pyro_sample` | a `condition` outside of the shim replaces the value after names were bound: traces outside have the value with its names |
| `C96_replay_fails`, `C96_module_fails` | pyro `PyroShim._pyro_post_sample` | the status is written into the `infer` dictionary of the guide trace (line 306) with the `id` of the shim: the next run with a new shim, as `pyro_module_shim` makes for each call, takes the site for one of another shim and gives its value without names |
| `C96_replay_inside_fails` | pyro `PyroShim._pyro_sample` | with `replay` inside of the shim the stage in the guide's `infer` replaces the stage of the second call: endless recursion |
| `C97_order_fails`, `C97_shared_fails`, `C97_unused_fails` | `_IteratorTerm.__next__`, `evaluate` | on terms, `next` is an expression without effect: evaluation takes an item at each occurrence in the result, in the order of the result, so items are exchanged, taken twice or not at all |
| `C97_advance_fails` | `_IterableTerm.__iter__`, `evaluate` | `it = iter(x); a = next(it); b = next(it)` gives the first item twice if `x` is a container |
| `C97_stop_fails` | `_evaluate_term` | the arguments are made by a generator (line 171), so `StopIteration` of an argument becomes `RuntimeError` |
| `C97_loop_fails` | `_IteratorTerm.__next__` | `for` over a term and `list` of a term never end |
| `C98_none_fails` | numpyro `_DistributionMethodTerm._pos_base_dist` | `to_event()` counts the dimensions of the names: they become part of the event shape, and `log_prob` raises `IndexError` |
| `C98_too_many_fails` | numpyro `_DistributionMethodTerm._pos_base_dist` | `to_event(k)` with `k` larger than the number of batch dimensions takes named dimensions instead of raising `ValueError` |
| `C98_expand_fails` | numpyro `_DistributionTerm.expand` | on a term made by `to_event` it returns the same distribution, not expanded, without an error |
| `C99_twice_fails`, `C99_other_name_fails`, `C99_ignored` | numpyro `_unbind_distribution` | parameters that have names are left alone: `unbind_dims(unbind_dims(d, a), b)` has no name `b`, and `unbind_dims(bind_dims(d, a), a)` has no name `a` if `d` has another name; the same for scalars. No error is raised |
| `C99_broadcast_fails` | numpyro `_unbind_distribution` | the first dimensions of a parameter with fewer dimensions are not the first of the batch: the wrong slice is taken if the sizes agree |
| `C104_empty_fails`, `C104_object` | jax `bind_dims`, `unbind_dims`, `_CustomSingleDispatchCallable` | the implementation for `object` is the function under the decorator itself, called with its arguments shifted by one: `bind_dims((), a)`, `bind_dims(None, a)` and `bind_dims(1.0, a)` raise TypeError ("object is not callable"), and a function is called with the type of the name |
| `C104_missing_fails` | jax `_bind_dims_array` | `bind_dims((x[a()], y, z[b()]), a)`: the first item gets a dimension, the second stays as it is, the third becomes a term; there is no error |
| `C100_default_fails`, `C100_keyword_fails` | unification `nested_type` | a function with defaults is no `Callable` of fewer arguments; one with required keyword-only parameters is a `Callable` of any arguments |
| `C100_wider_fails`, `C100_order_fails` | unification `_unify_generic` | parameters of functions are compared like results: a function of `int` is rejected for `Callable[[bool], T]`; `map(f, xs)` has a type where `map(xs, f)` has none |
| `C100_object_fails` | unification `nested_type` | an object whose class has an annotated `__call__` is no argument for a parameter annotated with its class, unless there are overloads in the module |
| `C100_omitted_fails` | types `__type_rule__` | called with a parameter left to its default, the assertion in `_unify_signature` fails; `defdata` fills in defaults first |
| `C101_parallel_fails`, `C101_context_fails` | llm `call_assistant`, `_pydantic_type_code` | all snippets of a reply are type-checked before the first of them runs: `x = 1` and `print(x)` in one reply are rejected, `del x` and `print(x)` are accepted |
| `C101_raising_fails` | llm `exec_code` | a snippet is checked as if an earlier one that raised had run to its end: names it would have bound later pass the check and raise `NameError` |
| `C101_drift_fails` | llm `_recover_template_def` | a template whose file has changed since import: the `RuntimeError` is sent to the model as feedback on its snippet and all attempts are used up |
| `C111_number_fails`, `C111_price_fails` | llm `call_user` | `{price:.2f}`, `{n:d}`, `{n:,d}` and the like are accepted when a template is defined and raise ValueError whenever it is called, for every value: the specification is applied to the text of the encoded value, a string |
| `C111_align_fails`, `C111_repr_fails`, `C111_blocks_fails` | llm `call_user` | for the same reason `{n:3}` puts a number on the left, `{l!r}` of a list is `'[1]'` with quotes, and `{s:3}` of a list with an image fills up the bracket before it and the one after it |
| `C111_nested_fails` | llm `call_user` | `{x:>{width}}` is accepted and raises for every value: fields in specifications are not replaced (and not validated) |
| `C112_first_fails`, `C112_nesting_fails` | llm `call_user`, `_serialize_tool` | `textwrap.dedent` is applied to docstrings (`inspect.cleandoc` would be the function for them): a docstring that begins on the line of the quotes has no common indentation, so that all other lines go to the model with the indentation of the source, before Python 3.13 |
| `C114_bare_fails` | llm `to_content_blocks` | strings at the top are not quoted: the prompt is the same for the string `"1"` and the number `1` |
| `C114_surrogates_fails`, `C114_repeated_fails`, `C115_repeated_fails`, `C114_nan_fails` | `json.dumps`, `json.loads` in llm | a pair of surrogates in a string is read back as one character; a tool call that gives an argument twice is accepted with the last value; `NaN` and `Infinity` are sent to the model, which is no JSON |
| `C116_arguments_fails`, `C116_result_fails` | encoding `_create_typed_synthesized_function` | `getattr(t, "__name__", ...)` drops the arguments of types: the model is asked for `Callable[[list], dict]` instead of `Callable[[list[int]], dict[str, int]]` |
| `C116_modules_fails`, `C116_dots_fails`, `C116_bare_fails` | encoding `_create_typed_synthesized_function` | classes with one name are not told apart; `Callable[..., r]` is shown as `Callable[[...], r]` |
| `C102_default_fails`, `C102_handler_fails` | `defdata` | a term has its defaults filled in and its arguments by position where possible: a handler with another default, without the parameter, or with keyword-only parameters gets other values from the evaluated term than from the call, or raises `TypeError` |
| `C102_keyword_only_fails`, `C102_op_fails` | `__apply__`, `defdata`, `CallByNeed` | keyword arguments named `self`, `op`, `__dispatch`, and keyword-only parameters named `func` or `ty`, collide with the library's own parameters: `TypeError` |
| `C103_union_fails`, `C103_named_fails`, `C103_int_fails` | `_simple_type`, `defdata` | an operation whose result is annotated `int \| None`, `Optional[int]`, with a `NewType`, a `type` alias, or `Literal[0, True]` cannot make a term: every unhandled call raises |
| `C103_argument_fails` | `__type_rule__` | with `-> T \| int` a call gives a term for `int` arguments and raises for others |
| `C103_constraint_fails`, `C103_ambiguous_fails` | `_simple_type`, `defdata` | an unsolved variable with constraints is taken for the first of them; a class with `__call__` and `__iter__` but neither base raises `RuntimeError` |

Seen while reading, not modelled: `torch` `grad`/`jacfwd`/`jacrev`/`hessian`
call `f(*a, *k)`; `round(1.5, x())` raises `TypeError`; `NamedTuple` fields are not converted by `Encodable`, and
generic `NamedTuple` aliases are treated as plain tuples; hashes of frozen
dataclass terms differ from call to call; `Wishart` of numpyro is embedded with
an attribute `df` that it does not have; nontrivial `ExpandedDistribution` of
pyro raises `ValueError`; `evaluate` of a `UserString` gives the text of a
generator object; in jax `x().at[i].set(v)` makes a new operation on each
call, so such terms are never syntactically equal; `nested_type` of an object that is
both callable and a collection raises `RuntimeError` (ambiguous dispatch);
`pretty_term` passes the keywords of a term to `pretty_call(ctx, fn, ...)`, so
keywords with the names of its parameters collide; in named_tensor_notation.ipynb
`reduce(..., torch.max)` leaves a dimension of size 1, `FullConn` applies the
sigmoid before the sum, and `Attention` divides by the size, not by its root; `is_eager_array` and
`_is_eager` of numpyro take lists and slices with terms inside for known; `handlers.jax.numpy`
makes operations of classes too (`float32`, `ndarray`) and has no constants but `pi`.
