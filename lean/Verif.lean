import Verif.Ule.Props
import Verif.Txn.Props
import Verif.Mvcc.Props
import Verif.Ule.PackProps
import Verif.Ft.BasementProps
import Verif.Lt.LockProps
import Verif.Lt.WaitProps
import Verif.Lt.RetryProps
import Verif.Blk.AllocProps
import Verif.Blk.TableProps
import Verif.Blk.CkptProps
import Verif.Ser.BufProps
import Verif.Ser.HeaderProps
import Verif.Ser.TableProps
import Verif.Ser.MsgBufProps
import Verif.Tree.Props
import Verif.Tree.SearchProps
import Verif.Ydb.Props
import Verif.Xa.Props
import Verif.Log.Props
import Verif.Logger.Props
import Verif.Roll.Props
import Verif.Rw.Props
import Verif.Rw.PlainProps
import Verif.Omt.Props
import Verif.Ckpt.Props
import Verif.Load.Props
import Verif.Rec.Props
import Verif.Node.PivotProps
import Verif.Node.BnProps
import Verif.Node.DiskProps
import Verif.Tree.Right
import Verif.Tree.RightSpec
import Verif.Tree.RightPath
import Verif.Tree.RightLemmas
import Verif.Tree.RightProps
import Verif.Multi.Model
import Verif.Multi.Spec
import Verif.Multi.Lemmas
import Verif.Multi.Update
import Verif.Multi.Replay
import Verif.Multi.Hist
import Verif.Multi.Props
import Verif.Hot.Model
import Verif.Hot.Spec
import Verif.Hot.Lemmas
import Verif.Hot.Committed
import Verif.Hot.Provisional
import Verif.Hot.Row
import Verif.Hot.Whole
import Verif.Hot.RowProps
import Verif.Hot.Build
import Verif.Hot.BuildSpec
import Verif.Hot.BuildLemmas
import Verif.Hot.BuildInv
import Verif.Hot.BuildProps
import Verif.Iso.Props
import Verif.Files.Props
import Verif.Names.Props
import Verif.Tree.OptProps
import Verif.Desc.Props
import Verif.Tree.RangeSpec
import Verif.Tree.Range
import Verif.Tree.RangeLemmas
import Verif.Tree.RangeRun
import Verif.Tree.RangeMain
import Verif.Tree.RangeProps
import Verif.Tree.SkipSpec
import Verif.Tree.Skip
import Verif.Tree.SkipLemmas
import Verif.Tree.SkipRun
import Verif.Tree.SkipProps
import Verif.Sort.Spec
import Verif.Sort.Model
import Verif.Sort.Quick
import Verif.Sort.Merge
import Verif.Sort.Buffer
import Verif.Sort.Props
import Verif.Count.Spec
import Verif.Count.Model
import Verif.Count.Inv
import Verif.Count.Step
import Verif.Count.Props
import Verif.Undo.Spec
import Verif.Undo.Model
import Verif.Undo.Lemmas
import Verif.Undo.Disk
import Verif.Undo.Props
import Verif.Evict.Model
import Verif.Evict.Spec
import Verif.Evict.Lemmas
import Verif.Evict.Step
import Verif.Evict.Calm
import Verif.Evict.Props
import Verif.Cron.Model
import Verif.Cron.Spec
import Verif.Cron.Lemmas
import Verif.Cron.Spacing
import Verif.Cron.Props
import Verif.Rowcount.Model
import Verif.Rowcount.Spec
import Verif.Rowcount.Lemmas
import Verif.Rowcount.Inv
import Verif.Rowcount.Bases
import Verif.Rowcount.Steps
import Verif.Rowcount.Stats
import Verif.Rowcount.Shape
import Verif.Rowcount.Props
import Verif.Workers.Model
import Verif.Workers.Spec
import Verif.Workers.Lemmas
import Verif.Workers.Ends
import Verif.Workers.Props
import Verif.Pipe.Model
import Verif.Pipe.Spec
import Verif.Pipe.Lemmas
import Verif.Pipe.Props
import Verif.Ahead.Model
import Verif.Ahead.Spec
import Verif.Ahead.Lemmas
import Verif.Ahead.More
import Verif.Ahead.Awake
import Verif.Ahead.Props
import Verif.Stale.Model
import Verif.Stale.Spec
import Verif.Stale.Lemmas
import Verif.Stale.More
import Verif.Stale.Memory
import Verif.Stale.Props
import Verif.LockWait.Model
import Verif.LockWait.Spec
import Verif.LockWait.Props
import Verif.Redirect.Model
import Verif.Redirect.Spec
import Verif.Redirect.Lemmas
import Verif.Redirect.Inv
import Verif.Redirect.Steps
import Verif.Redirect.Run
import Verif.Redirect.Props
import Verif.Fsize.Model
import Verif.Fsize.Spec
import Verif.Fsize.Lemmas
import Verif.Fsize.Steps
import Verif.Fsize.Props
import Verif.FullWrite.Model
import Verif.FullWrite.Spec
import Verif.FullWrite.Props
import Verif.Dbt.Model
import Verif.Dbt.Spec
import Verif.Dbt.Inv
import Verif.Dbt.Props
import Verif.Verify.Model
import Verif.Verify.Spec
import Verif.Verify.Lemmas
import Verif.Verify.Tree
import Verif.Verify.Props
import Verif.Open.Model
import Verif.Open.Spec
import Verif.Open.Lemmas
import Verif.Open.Props
import Verif.Space.Model
import Verif.Space.Spec
import Verif.Space.Lemmas
import Verif.Space.Props
import Verif.Bulk.Model
import Verif.Bulk.Spec
import Verif.Bulk.Lemmas
import Verif.Bulk.Props
import Verif.Tables.Model
import Verif.Tables.Spec
import Verif.Tables.Lemmas
import Verif.Tables.Props
import Verif.Qlz.Model
import Verif.Qlz.Spec
import Verif.Qlz.Lemmas
import Verif.Qlz.Enc
import Verif.Qlz.Props
import Verif.Recount.Model
import Verif.Recount.Spec
import Verif.Recount.Lemmas
import Verif.Recount.Props
import Verif.LoadErr.Model
import Verif.LoadErr.Props
import Verif.Nest.Model
import Verif.Nest.Props
import Verif.Par.Model
import Verif.Par.Props
import Verif.Pool.Model
import Verif.Pool.Props
import Verif.Paths.Model
import Verif.Paths.Props
import Verif.Audit
