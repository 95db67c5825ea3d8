import Verif.Text.Props
import Verif.Text.Props2
import Verif.Quote.Props
import Verif.Path.Props
import Verif.Hash.Props
import Verif.Strcache.Props
import Verif.Read.LineProps
import Verif.Read.CondProps
import Verif.Var.Props
import Verif.Expand.Props
import Verif.Misc.Props
import Verif.Debugger.Props
import Verif.Debugger.Args
import Verif.Debugger.StepProps
import Verif.Debugger.LinesProps
import Verif.Debugger.StackProps
import Verif.Include.Props2
import Verif.Update.Witness
import Verif.Cmds.Props
import Verif.Files.Props
import Verif.Files.ArProps
import Verif.Jobs.Props
import Verif.Shell.Props
import Verif.Recipe.Props
import Verif.Rules.Props
import Verif.Vpath.Props
import Verif.Flags.Props
import Verif.Flags.EnvProps
import Verif.Dir.Props
import Verif.Output.Props
import Verif.Output.Message
import Verif.Reader.Props2
import Verif.Reader.TargetProps
import Verif.Start.Props
import Verif.Start.Command
import Verif.Start.RestartProps
import Verif.Start.MakefilesProps
import Verif.Archive.Props2
import Verif.Reader.PatternProps
import Verif.Snap.Props
import Verif.Snap.ExtraProps
import Verif.Snap.Keep
import Verif.Times.Props
import Verif.Times.LookupProps
import Verif.Print.Props2
import Verif.Archive.Props3
import Verif.Print.AssignProps
import Verif.Direct.Props
import Verif.Rename.Props2
import Verif.Glob.MatchProps
import Verif.Glob.Props
import Verif.Wake.Props
import Verif.Fatal.Props
import Verif.FileFn.Props
import Verif.PatSecond.Props
import Verif.Profile.Props
import Verif.Load.Props
import Verif.Load.AvgProps
import Verif.Exec.Props
import Verif.Exec.Props2
import Verif.Ask.Props
import Verif.Debugger.VarsProps2
import Verif.Where.Props
import Verif.Where.Fail
import Verif.Home.Props
import Verif.Levels.Trace
import Verif.DataBase.Rules
import Verif.Says.Props
import Verif.Builtin.Props
import Verif.Stdin.Props
import Verif.Tasks.Props
import Verif.DataBase.Prefix
import Verif.Cwd.Props
import Verif.Builtin.Values
import Verif.Tasks.Include
import Verif.Lost.Model
import Verif.Lost.Props
import Verif.Real.Model
import Verif.Real.Props
import Verif.Quit.Model
import Verif.Quit.Props
import Verif.Stale.Model
import Verif.Stale.Props
import Verif.Member.Model
import Verif.Member.Props
import Verif.Concat.Model
import Verif.Concat.Props
import Verif.Prompt.Model
import Verif.Prompt.Props
