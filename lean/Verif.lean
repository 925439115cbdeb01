import Verif.Lib.Dict
import Verif.Lib.Graph
import Verif.Lib.KV
import Verif.Model.Announce
import Verif.Model.Answers
import Verif.Model.Base
import Verif.Model.Callbacks
import Verif.Model.Cells
import Verif.Model.Collapse
import Verif.Model.Colours
import Verif.Model.Columns
import Verif.Model.Deferred
import Verif.Model.Desk
import Verif.Model.Dicts
import Verif.Model.DragDrop
import Verif.Model.DragSetup
import Verif.Model.Emit
import Verif.Model.FilteredTree
import Verif.Model.Filters
import Verif.Model.Index
import Verif.Model.KV
import Verif.Model.Kept
import Verif.Model.Live
import Verif.Model.Looks
import Verif.Model.Nested
import Verif.Model.Now
import Verif.Model.Objects
import Verif.Model.Picking
import Verif.Model.Print
import Verif.Model.Queue
import Verif.Model.Rough
import Verif.Model.RunOnce
import Verif.Model.Sorting
import Verif.Model.Suite
import Verif.Model.Tree
import Verif.Model.TreeModel
import Verif.Model.Version
import Verif.Model.View
import Verif.Model.ViewCount
import Verif.Model.ViewTree
import Verif.Model.Views
import Verif.Proofs.AddNode
import Verif.Proofs.Announce
import Verif.Proofs.Answers
import Verif.Proofs.Below
import Verif.Proofs.BelowApp
import Verif.Proofs.BelowEdits
import Verif.Proofs.BelowRemove
import Verif.Proofs.ByHand
import Verif.Proofs.Cells
import Verif.Proofs.Chain
import Verif.Proofs.ChainHide
import Verif.Proofs.ChainOrphan
import Verif.Proofs.Collapse
import Verif.Proofs.Colours
import Verif.Proofs.CountApp
import Verif.Proofs.Dangling
import Verif.Proofs.DanglingGone
import Verif.Proofs.DanglingUp
import Verif.Proofs.Declared
import Verif.Proofs.DeepRemove
import Verif.Proofs.Dicts
import Verif.Proofs.Edits
import Verif.Proofs.Fewer
import Verif.Proofs.FewerApp
import Verif.Proofs.FewerEdits
import Verif.Proofs.FewerRemove
import Verif.Proofs.ForestWait
import Verif.Proofs.Growing
import Verif.Proofs.Hierarchy
import Verif.Proofs.History
import Verif.Proofs.Keeps
import Verif.Proofs.KeepsGood
import Verif.Proofs.KeepsRem
import Verif.Proofs.Kept
import Verif.Proofs.Late
import Verif.Proofs.Leftover
import Verif.Proofs.Live
import Verif.Proofs.LiveApp
import Verif.Proofs.Midway
import Verif.Proofs.Minimal
import Verif.Proofs.Moments
import Verif.Proofs.Move
import Verif.Proofs.Nested
import Verif.Proofs.NestedUp
import Verif.Proofs.NestedView
import Verif.Proofs.NodeEdits
import Verif.Proofs.Notes
import Verif.Proofs.Now
import Verif.Proofs.Objects
import Verif.Proofs.ObjectsCalls
import Verif.Proofs.ObjectsMove
import Verif.Proofs.ObjectsRun
import Verif.Proofs.Order
import Verif.Proofs.OwnFair
import Verif.Proofs.Reading
import Verif.Proofs.Remove
import Verif.Proofs.Rough
import Verif.Proofs.RoughApp
import Verif.Proofs.SpecTree
import Verif.Proofs.StaleFit
import Verif.Proofs.Suite
import Verif.Proofs.Tidy
import Verif.Proofs.Touched
import Verif.Proofs.Trace
import Verif.Proofs.TreeBasic
import Verif.Proofs.TreeModel
import Verif.Proofs.Untouched
import Verif.Proofs.UpInv
import Verif.Proofs.ViewApp
import Verif.Proofs.ViewCount
import Verif.Proofs.ViewEdits
import Verif.Proofs.ViewFill
import Verif.Proofs.ViewHistory
import Verif.Proofs.ViewPrefix
import Verif.Proofs.ViewRead
import Verif.Proofs.ViewRefilter
import Verif.Proofs.ViewRows
import Verif.Proofs.ViewStale
import Verif.Proofs.ViewStaleDown
import Verif.Proofs.ViewStaleUp
import Verif.Proofs.ViewUpdate
import Verif.Proofs.ViewVanish
import Verif.Proofs.WF
import Verif.Proofs.Waiting
import Verif.Proofs.Watching
import Verif.Props.Announce
import Verif.Props.Answers
import Verif.Props.Batch
import Verif.Props.Below
import Verif.Props.ByHand
import Verif.Props.Callbacks
import Verif.Props.Cells
import Verif.Props.Collapse
import Verif.Props.Colours
import Verif.Props.Columns
import Verif.Props.Connect
import Verif.Props.Consistency
import Verif.Props.CountChildren
import Verif.Props.Declared
import Verif.Props.Deferred
import Verif.Props.Desk
import Verif.Props.Dicts
import Verif.Props.DragDrop
import Verif.Props.DragSetup
import Verif.Props.Emit
import Verif.Props.Fewer
import Verif.Props.FilteredTree
import Verif.Props.Filters
import Verif.Props.ForestSuite
import Verif.Props.ForestWait
import Verif.Props.Growing
import Verif.Props.Hierarchy
import Verif.Props.HierarchyEdits
import Verif.Props.Index
import Verif.Props.Iterators
import Verif.Props.Kept
import Verif.Props.LeftSuite
import Verif.Props.Leftover
import Verif.Props.Live
import Verif.Props.Loading
import Verif.Props.Looks
import Verif.Props.Move
import Verif.Props.Nested
import Verif.Props.NestedView
import Verif.Props.Now
import Verif.Props.Objects
import Verif.Props.OnePlace
import Verif.Props.Order
import Verif.Props.Picking
import Verif.Props.Print
import Verif.Props.Queue
import Verif.Props.Reading
import Verif.Props.Refresh
import Verif.Props.Relations
import Verif.Props.Removal
import Verif.Props.Rough
import Verif.Props.RunOnce
import Verif.Props.Siblings
import Verif.Props.Sorting
import Verif.Props.Subtree
import Verif.Props.Suite
import Verif.Props.TreeModel
import Verif.Props.Undo
import Verif.Props.Untouched
import Verif.Props.Version
import Verif.Props.ViewChildren
import Verif.Props.ViewCount
import Verif.Props.ViewReading
import Verif.Props.ViewTree
import Verif.Props.Views
import Verif.Props.Waiting
import Verif.Props.Watching
import Verif.Spec.Announce
import Verif.Spec.Answers
import Verif.Spec.Batch
import Verif.Spec.Below
import Verif.Spec.ByHand
import Verif.Spec.Callbacks
import Verif.Spec.Cells
import Verif.Spec.Collapse
import Verif.Spec.Colours
import Verif.Spec.Columns
import Verif.Spec.Consistent
import Verif.Spec.Deferred
import Verif.Spec.Desk
import Verif.Spec.Dicts
import Verif.Spec.DragDrop
import Verif.Spec.DragSetup
import Verif.Spec.Emit
import Verif.Spec.Fewer
import Verif.Spec.FilteredTree
import Verif.Spec.Filters
import Verif.Spec.ForestSuite
import Verif.Spec.ForestWait
import Verif.Spec.Growing
import Verif.Spec.Hierarchy
import Verif.Spec.HierarchyEdits
import Verif.Spec.Index
import Verif.Spec.Kept
import Verif.Spec.LeftSuite
import Verif.Spec.Leftover
import Verif.Spec.Live
import Verif.Spec.Loading
import Verif.Spec.Looks
import Verif.Spec.Moments
import Verif.Spec.Nested
import Verif.Spec.NestedView
import Verif.Spec.Notes
import Verif.Spec.Now
import Verif.Spec.Objects
import Verif.Spec.OnePlace
import Verif.Spec.Order
import Verif.Spec.Picking
import Verif.Spec.Print
import Verif.Spec.Queue
import Verif.Spec.Reading
import Verif.Spec.Rough
import Verif.Spec.RunOnce
import Verif.Spec.Siblings
import Verif.Spec.Subtree
import Verif.Spec.Suite
import Verif.Spec.Tree
import Verif.Spec.TreeModel
import Verif.Spec.Undo
import Verif.Spec.Untouched
import Verif.Spec.Version
import Verif.Spec.View
import Verif.Spec.ViewChildren
import Verif.Spec.ViewCount
import Verif.Spec.ViewTree
import Verif.Spec.Waiting
import Verif.Spec.Watching
import Verif.Tests.FilteredTree
import Verif.Tests.Harness
import Verif.Tests.Liblarch
import Verif.Tests.Liblarch2
import Verif.Tests.Nodes
